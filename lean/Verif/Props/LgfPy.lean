import Verif.Theory.LgfPy

/-!
# Properties: files written and read by `utility/gaussian2Dcase.py` (C84)
-/

namespace PSP.Props

open PSP.Model PSP.Spec PSP.Theory

/-- Reading a file that `convert` has written gives back the graph: the nodes are the row numbers, and there is an edge for
each pair `i < j` with an entry of at least `1e-10`, labelled with that entry as it was printed. -/
theorem C84_roundtrip {n : ℕ} {A : ℕ → ℕ → ℚ} {str : ℚ → List Char} (hstr : ∀ x, NumberText (str x)) :
    ∃ g, toNetworkX (convert n A str) = .ok g ∧ g.nodes = (List.range n).map (Nat.toDigits 10) ∧
      (∀ s t c, ((s, t), c) ∈ g.edges ↔ ∃ i j, i < j ∧ j < n ∧ 1 / 10000000000 ≤ A i j ∧ s = Nat.toDigits 10 i ∧
        t = Nat.toDigits 10 j ∧ c = str (A i j)) ∧ (g.edges.map Prod.fst).Nodup ∧ g.marks = [] := by
  refine ⟨fileGraph n A str, ?_, rfl, fun s t c => ?_, ?_, rfl⟩
  · have := toNetworkX_convert (n := n) (A := A) hstr [] (by simp)
    rw [List.append_nil] at this
    exact this
  · simp only [fileGraph, pairEdges, List.mem_map, List.mem_filter, mem_upperPairs, Prod.mk.injEq, Prod.exists,
      decide_eq_true_eq, not_lt]
    constructor
    · rintro ⟨i, j, ⟨⟨h1, h2⟩, h3⟩, ⟨rfl, rfl⟩, rfl⟩
      exact ⟨i, j, h1, h2, h3, rfl, rfl, rfl⟩
    · rintro ⟨i, j, h1, h2, h3, rfl, rfl, rfl⟩
      exact ⟨i, j, ⟨⟨h1, h2⟩, h3⟩, ⟨rfl, rfl⟩, rfl⟩
  · simp only [fileGraph, pairEdges, List.map_map]
    refine List.Nodup.map ?_ ((upperPairs_nodup n).filter _)
    intro p q h
    exact Prod.ext (decimal_injective (Prod.mk.inj h).1) (decimal_injective (Prod.mk.inj h).2)

/-- A print of numbers for the examples: the numerator. -/
def exPrint (x : ℚ) : List Char := Nat.toDigits 10 x.num.natAbs

/-- A matrix for the examples. -/
def exMatrix (i j : ℕ) : ℚ := if i + j = 2 then 0 else (10 * i + j : ℕ)

theorem exPrint_number (x : ℚ) : NumberText (exPrint x) := decimal_number _

example := C84_roundtrip (n := 3) (A := exMatrix) exPrint_number

example : convert 3 exMatrix exPrint =
      "@nodes\nlabel\n0\n1\n2\n@arcs\n\t\tlabel\tcapacity\n0\t1\t0\t1\n1\t2\t1\t12".toList ∧
    toNetworkX (convert 3 exMatrix exPrint) =
      .ok ⟨[['0'], ['1'], ['2']], [((['0'], ['1']), ['1']), ((['1'], ['2']), ['1', '2'])], []⟩ := by
  decide +kernel

/-- The attributes are lost: if lines for the source and the target follow in the file, as the format demands, the graph is
the same as without them, and no node is labelled `s` or `t`. -/
theorem C84_attributes_violated {n : ℕ} {A : ℕ → ℕ → ℚ} {str : ℚ → List Char} (hstr : ∀ x, NumberText (str x))
    {s t : List Char} (hs : NumberText s) (ht : NumberText t) :
    ∃ g, toNetworkX (convert n A str ++ "\n@attributes\nsource ".toList ++ s ++ "\ntarget ".toList ++ t) = .ok g ∧
      toNetworkX (convert n A str) = .ok g ∧ g.marks = [] := by
  refine ⟨fileGraph n A str, ?_, ?_, rfl⟩
  · have h1 := toNetworkX_convert (n := n) (A := A) hstr
      ["@attributes".toList, "source ".toList ++ s, "target ".toList ++ t] (by
        intro l hl
        simp only [List.mem_cons, List.not_mem_nil, or_false] at hl
        rcases hl with rfl | rfl | rfl
        · exact ⟨by decide, by decide⟩
        · refine ⟨fun h => ?_, by simp⟩
          rcases List.mem_append.1 h with h | h
          · exact absurd h (by decide)
          · exact hs.not_mem (by decide) h
        · refine ⟨fun h => ?_, by simp⟩
          rcases List.mem_append.1 h with h | h
          · exact absurd h (by decide)
          · exact ht.not_mem (by decide) h)
    have h2 : strJoin '\n' (convertLines n A str ++ ["@attributes".toList, "source ".toList ++ s, "target ".toList ++ t]) =
        convert n A str ++ "\n@attributes\nsource ".toList ++ s ++ "\ntarget ".toList ++ t := by
      rw [join_append (by simp [convertLines]) (by simp)]
      simp [strJoin, convertLines, convert]
    rw [← h2, h1, arcLoop, if_pos (by decide), Outcome.ok_bind]
    dsimp only
    rw [readMark, if_neg (by decide), Outcome.ok_bind, readMark, List.headD_cons, if_neg]
    have : hasSub "target".toList ("source ".toList ++ s) = false := by
      refine not_hasSub (c := 'a') (by decide) fun h => ?_
      rcases List.mem_append.1 h with h | h
      · exact absurd h (by decide)
      · exact hs.not_mem (by decide) h
    rw [this]
    simp
  · have := toNetworkX_convert (n := n) (A := A) hstr [] (by simp)
    rw [List.append_nil] at this
    exact this

example := C84_attributes_violated (n := 3) (A := exMatrix) exPrint_number (s := ['0']) (t := ['2'])
  ⟨by decide, by decide⟩ ⟨by decide, by decide⟩

/-- Only a target that follows the heading at once is read. -/
example : toNetworkX (convert 2 exMatrix exPrint ++ "\n@attributes\ntarget 1\nsource 0".toList) =
    .ok ⟨[['0'], ['1']], [((['0'], ['1']), ['1'])], [(['1'], ['t'])]⟩ := by decide +kernel

/-- A file without a line `@arcs` is never read to the end: the reader goes on for ever. -/
theorem C84_endless_violated {file : List Char} (h : ¬ "@arcs".toList <:+: file) : toNetworkX file = .fuel := by
  have hl : ∀ (f : List Char), ∀ l ∈ fileLines f, l <:+: f := by
    intro f
    induction f with
    | nil => simp [fileLines]
    | cons c f ih =>
      have hpre : ∀ l ls, fileLines f = l :: ls → l <+: f := by
        clear ih
        induction f with
        | nil => simp [fileLines]
        | cons d f ih =>
          intro l ls hf
          rw [fileLines] at hf
          split at hf
          · rename_i hd
            rw [List.cons.injEq] at hf
            rw [← hf.1]
            exact ⟨f, rfl⟩
          · split at hf
            · rw [List.cons.injEq] at hf
              rw [← hf.1]
              exact ⟨f, rfl⟩
            · rename_i l' ls' hf'
              rw [List.cons.injEq] at hf
              rw [← hf.1]
              exact List.cons_prefix_cons.2 ⟨rfl, ih _ _ hf'⟩
      intro l hmem
      rw [fileLines] at hmem
      split at hmem
      · rcases List.mem_cons.1 hmem with rfl | hmem
        · exact ⟨[], f, rfl⟩
        · exact (ih l hmem).trans (List.suffix_cons c f).isInfix
      · split at hmem
        · rw [List.mem_singleton.1 hmem]
          exact ⟨[], f, rfl⟩
        · rename_i l' ls' hf
          rcases List.mem_cons.1 hmem with rfl | hmem
          · exact (List.cons_prefix_cons.2 ⟨rfl, hpre _ _ hf⟩).isInfix
          · exact (ih l (by rw [hf]; exact List.mem_cons_of_mem _ hmem)).trans (List.suffix_cons c f).isInfix
  have hno : ∀ l ∈ fileLines file, hasSub "@arcs".toList l = false := fun l hmem =>
    decide_eq_false fun hi => h (hi.trans (hl file l hmem))
  unfold toNetworkX readLines
  rw [nodeLoop_endless (fun l hmem => hno l (List.mem_of_mem_drop hmem))]
  · rfl
  · rw [List.getD_eq_getElem?_getD]
    cases he : (fileLines file)[1]? with
    | none => decide
    | some l => exact hno l (List.mem_of_getElem? he)

example : toNetworkX "@nodes\nlabel\n0\n1\n".toList = .fuel := C84_endless_violated (by decide +kernel)

end PSP.Props
