import Verif.Model.LgfPy

/-!
# Model of `Gaussian2DGraph` (test/gaussian2Dcase.cpp): a graph for points of the plane

The class is the example of a user of `PSP`: it derives a graph from points and passes it to the constructor of `PSP`.
`exp` is a parameter and numbers are exact; `x_pos` and `y_pos`, which always have the same length, are one list of pairs;
`np` is not negative.
-/

namespace PSP.Model

open PSP.Spec

/-- `compute_similarity` (gaussian2Dcase.cpp:34-36); `ex t` stands for `exp(-t)`. -/
def similarity (ex : ℚ → ℚ) (γ : ℚ) (p q : ℚ × ℚ) : ℚ := ex (γ * (p.1 - q.1) ^ 2 + γ * (p.2 - q.2) ^ 2)

/-- `data_1` (gaussian2Dcase.h:27). -/
def cloudCentres : List (ℚ × ℚ) := [(3, 3), (3, -3), (-3, -3), (-3, 3)]

/-- The positions (gaussian2Dcase.cpp:6-23). Without an array there are `np / 4` random points around each of four centres;
`rnd` is the sequence of random numbers, two of which are used for each point. With an array its first `np` rows are read;
it is undefined behaviour if there are fewer. -/
def cloudPositions (np : ℕ) (a : Option (List (ℚ × ℚ))) (rnd : ℕ → ℚ) : Outcome (List (ℚ × ℚ)) :=
  match a with
  | none => .ok ((List.range 4).flatMap fun j => (List.range (np / 4)).map fun i =>
      let k := 2 * (j * (np / 4) + i)
      (rnd k + (cloudCentres.getD j 0).1, rnd (k + 1) + (cloudCentres.getD j 0).2))
  | some a => if np ≤ a.length then .ok (a.take np) else .ub "read outside of the array"

/-- The edges (gaussian2Dcase.cpp:24-29) for the pairs still to come. `x_pos[i]` beyond the end of the vector is undefined
behaviour. -/
def cloudEdges (eps : ℚ) (sim : ℚ × ℚ → ℚ × ℚ → ℚ) (pos : List (ℚ × ℚ)) : List (ℕ × ℕ) → Outcome (List Arc)
  | [] => .ok []
  | (i, j) :: ps =>
    match pos[i]?, pos[j]? with
    | some p, some q => do
      let es ← cloudEdges eps sim pos ps
      .ok (if eps < sim p q then ⟨i, j, sim p q⟩ :: es else es)
    | _, _ => .ub "read outside of x_pos"

/-- The constructor of `Gaussian2DGraphBase` (gaussian2Dcase.cpp:3-30): the positions and the list of edges, which
`Gaussian2DGraph` passes to the constructor of `PSP` together with `np` (gaussian2Dcase.cpp:38-41). -/
def gaussian2D (eps : ℚ) (sim : ℚ × ℚ → ℚ × ℚ → ℚ) (np : ℕ) (a : Option (List (ℚ × ℚ))) (rnd : ℕ → ℚ) :
    Outcome (List (ℚ × ℚ) × List Arc) := do
  let pos ← cloudPositions np a rnd
  let es ← cloudEdges eps sim pos (upperPairs np)
  .ok (pos, es)

end PSP.Model
