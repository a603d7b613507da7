import Verif.Model.Basic

/-!
# Model of `experimental/get_psp.py`

The script gets a tree: `K[j]` is the parent of node `j` and `W[j]` the weight of the edge between them. It only compares
weights, so the rational numbers here stand for Python's numbers without loss (`nan` excluded). Entries of `K` are natural
numbers (a negative entry would be used as a key of the dictionary only). Reading a list beyond its end raises
`IndexError`.
-/

namespace PSP.Model

/-- `l[i]` for a Python list and `i ≥ 0`. -/
def pyGet {α : Type} (l : List α) (i : ℕ) : Outcome α :=
  match l[i]? with
  | some a => .ok a
  | none => .exc "IndexError"

/-- A Python dictionary: keys in the order of their insertion. -/
abbrev PyDict := List (ℕ × List ℕ)

/-- `D.get(k)`. -/
def PyDict.get (D : PyDict) (k : ℕ) : Option (List ℕ) := (D.find? fun e => e.1 = k).map Prod.snd

/-- `D[k] = v`: an existing key keeps its place. -/
def PyDict.set (D : PyDict) (k : ℕ) (v : List ℕ) : PyDict :=
  if D.get k = none then D ++ [(k, v)] else D.map fun e => if e.1 = k then (k, v) else e

/-- `D.pop(k)` for an existing key. -/
def PyDict.pop (D : PyDict) (k : ℕ) : PyDict := D.filter fun e => e.1 ≠ k

/-- `gamma` (get_psp.py:6-9). -/
def pyGamma (W : List ℚ) : List ℕ → ℚ → Outcome ℚ
  | [], gamma => .ok gamma
  | i :: C, gamma => do
    let w ← pyGet W i
    pyGamma W C (if gamma < w then w else gamma)

/-- What one node with a weight of at least `gamma` does to the dictionary (get_psp.py:15-27). Lists are shared between
`D[j]` and `D[K[j]]` only until `D.pop(j)`, so they are values here. -/
def pyJoin (D : PyDict) (j k : ℕ) : PyDict :=
  match D.get j with
  | some dj =>
    if k = j then D
    else match D.get k with
      | none => (D.set k dj).pop j
      | some dk => (D.set k (dk ++ dj)).pop j
  | none =>
    match D.get k with
    | none => D.set k [j, k]
    | some dk => D.set k (dk ++ [j])

/-- The loop over `C` (get_psp.py:10-27): the dictionary and `new_C`. -/
def pyMergeLoop (K : List ℕ) (W : List ℚ) (gamma : ℚ) : List ℕ → PyDict → List ℕ → Outcome (PyDict × List ℕ)
  | [], D, newC => .ok (D, newC)
  | j :: C, D, newC => do
    let w ← pyGet W j
    if w < gamma then pyMergeLoop K W gamma C D (newC ++ [j])
    else do
      let k ← pyGet K j
      pyMergeLoop K W gamma C (pyJoin D j k) newC

/-- `P` (get_psp.py:28-36). The iteration order of the set `div_set` is taken to be ascending. -/
def pyBlocks (n : ℕ) (D : PyDict) : List CSet :=
  let total := (D.map Prod.snd).flatten
  D.map (fun e => e.2.toFinset) ++
    if total.length < n then ((List.range n).filter fun i => i ∉ total).map fun i => {i} else []

/-- `while len(C) > 1` (get_psp.py:43-47); `L` and `Q` grow at the front. The loop need not end, hence the fuel. -/
def pyLoop (n : ℕ) (K : List ℕ) (W : List ℚ) :
    ℕ → List ℕ → PyDict → List ℚ → List (List CSet) → Outcome (List ℚ × List (List CSet))
  | 0, C, _, L, Q => if 1 < C.length then .fuel else .ok (L, Q)
  | fuel + 1, C, D, L, Q =>
    if 1 < C.length then do
      let gamma ← pyGamma W C (-1)
      let r ← pyMergeLoop K W gamma C D []
      pyLoop n K W fuel r.2 r.1 (gamma :: L) (pyBlocks n r.1 :: Q)
    else .ok (L, Q)

/-- `get_psp(n, K, W)` (get_psp.py:4-47), at most `fuel` iterations of the loop. -/
def getPsp (fuel n : ℕ) (K : List ℕ) (W : List ℚ) : Outcome (List ℚ × List (List CSet)) :=
  pyLoop n K W fuel (List.range n) [] [] [(List.range n).map fun i => {i}]

end PSP.Model
