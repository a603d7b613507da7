import Verif.Model.LgfPy
import Verif.Spec.LgfPy
import Mathlib.Data.List.Nodup
import Mathlib.Tactic.IntervalCases

/-!
# Reading back what was written
-/

namespace PSP.Theory

open PSP.Model PSP.Spec

/-! ### texts -/

theorem hasSub_newline {pat st : Text} (h0 : pat ≠ []) (h : '\n' ∉ pat) : hasSub pat (st ++ ['\n']) = hasSub pat st := by
  unfold hasSub
  rw [decide_eq_decide, List.infix_concat_iff]
  refine ⟨fun h1 => h1.elim (fun h2 => ?_) id, Or.inr⟩
  obtain ⟨t, ht⟩ := h2
  rcases List.eq_nil_or_concat pat with rfl | ⟨q, c, rfl⟩
  · exact absurd rfl h0
  · rw [List.concat_eq_append] at h ht
    rw [← List.append_assoc] at ht
    have := (List.append_inj' ht rfl).2
    simp only [List.cons.injEq, and_true] at this
    subst this
    simp at h

theorem dropWhile_nil {st : Text} (h : ∀ c ∈ st, isBlank c) : st.dropWhile isBlank = [] := by
  induction st with
  | nil => rfl
  | cons c st ih =>
    rw [List.dropWhile_cons, if_pos (h c (by simp))]
    exact ih fun d hd => h d (List.mem_cons_of_mem _ hd)

theorem strip_newline (st : Text) : pyStrip (st ++ ['\n']) = pyStrip st := by
  unfold pyStrip
  by_cases h : ∀ c ∈ st, isBlank c
  · rw [dropWhile_nil h, dropWhile_nil (st := st ++ ['\n'])]
    intro c hc
    rcases List.mem_append.1 hc with hc | hc
    · exact h c hc
    · rw [List.mem_singleton.1 hc]; rfl
  · have h1 : (st ++ ['\n']).dropWhile isBlank = st.dropWhile isBlank ++ ['\n'] := by
      induction st with
      | nil => simp at h
      | cons c st ih =>
        by_cases hc : isBlank c
        · simp only [List.cons_append, List.dropWhile_cons, hc, if_true]
          refine ih fun h2 => h fun d hd => ?_
          rcases List.mem_cons.1 hd with rfl | hd
          · exact hc
          · exact h2 d hd
        · simp [hc]
    rw [h1, List.reverse_append, List.reverse_singleton, List.singleton_append, List.dropWhile_cons]
    rw [if_pos (by rfl)]

theorem strip_id {st : Text} (h : ∀ c ∈ st.head?, isBlank c = false) (h' : ∀ c ∈ st.getLast?, isBlank c = false) :
    pyStrip st = st := by
  have key : ∀ l : Text, (∀ c ∈ l.head?, isBlank c = false) → l.dropWhile isBlank = l := by
    intro l hl
    cases l with
    | nil => rfl
    | cons c l => rw [List.dropWhile_cons, hl c (by simp)]; rfl
  unfold pyStrip
  rw [key st h, key st.reverse (by rwa [List.head?_reverse]), List.reverse_reverse]

theorem not_hasSub {pat st : Text} {c : Char} (hc : c ∈ pat) (h : c ∉ st) : hasSub pat st = false :=
  decide_eq_false fun hi => h (hi.subset hc)

theorem split_none {c : Char} {t : Text} (h : c ∉ t) : pySplit c t = [t] := by
  induction t with
  | nil => rfl
  | cons x t ih =>
    rw [List.mem_cons, not_or] at h
    rw [pySplit, if_neg (Ne.symm h.1), ih h.2]

theorem split_append {c : Char} {t : Text} (h : c ∉ t) (r : Text) : pySplit c (t ++ c :: r) = t :: pySplit c r := by
  induction t with
  | nil => rw [List.nil_append, pySplit, if_pos rfl]
  | cons x t ih =>
    rw [List.mem_cons, not_or] at h
    rw [List.cons_append, pySplit, if_neg (Ne.symm h.1), ih h.2]

theorem lines_append {t : Text} (h : '\n' ∉ t) (r : Text) : fileLines (t ++ '\n' :: r) = (t ++ ['\n']) :: fileLines r := by
  induction t with
  | nil => rw [List.nil_append, fileLines, if_pos rfl]; rfl
  | cons x t ih =>
    rw [List.mem_cons, not_or] at h
    rw [List.cons_append, fileLines, if_neg (Ne.symm h.1), ih h.2]; rfl

theorem lines_last {t : Text} (h : '\n' ∉ t) (h0 : t ≠ []) : fileLines t = [t] := by
  induction t with
  | nil => exact absurd rfl h0
  | cons x t ih =>
    rw [List.mem_cons, not_or] at h
    rw [fileLines, if_neg (Ne.symm h.1)]
    cases t with
    | nil => rfl
    | cons y t => rw [ih h.2 (by simp)]

/-- The same line, perhaps with its end. -/
def SameLine (a b : Text) : Prop := a = b ∨ a = b ++ ['\n']

theorem lines_join {ls : List Text} (h : ∀ l ∈ ls, '\n' ∉ l) (h0 : ∀ l ∈ ls.getLast?, l ≠ []) :
    List.Forall₂ SameLine (fileLines (strJoin '\n' ls)) ls := by
  induction ls with
  | nil => exact .nil
  | cons a ls ih =>
    cases ls with
    | nil =>
      rw [strJoin, lines_last (h a (by simp)) (h0 a (by simp))]
      exact .cons (Or.inl rfl) .nil
    | cons b ls =>
      rw [strJoin, lines_append (h a (by simp))]
      exact .cons (Or.inr rfl) (ih (fun l hl => h l (List.mem_cons_of_mem _ hl))
        (fun l hl => h0 l (by rw [List.getLast?_cons_cons]; exact hl)))

theorem SameLine.hasSub {a b : Text} (h : SameLine a b) {pat : Text} (h0 : pat ≠ []) (h1 : '\n' ∉ pat) :
    hasSub pat a = hasSub pat b := by
  rcases h with rfl | rfl
  · rfl
  · exact hasSub_newline h0 h1

theorem SameLine.strip {a b : Text} (h : SameLine a b) : pyStrip a = pyStrip b := by
  rcases h with rfl | rfl
  · rfl
  · exact strip_newline _

theorem nodeLoop_same {ls ls' : List Text} (h : List.Forall₂ SameLine ls ls') : ∀ {a b : Text} (g : NxGraph), SameLine a b →
    (nodeLoop g b ls' = .fuel ∧ nodeLoop g a ls = .fuel) ∨ ∃ g' r r', nodeLoop g b ls' = .ok (g', r') ∧
      nodeLoop g a ls = .ok (g', r) ∧ List.Forall₂ SameLine r r' := by
  induction h with
  | nil =>
    intro a b g hab
    unfold nodeLoop
    rw [hab.hasSub (by decide) (by decide)]
    split
    · exact Or.inr ⟨g, [], [], rfl, rfl, .nil⟩
    · exact Or.inl ⟨rfl, rfl⟩
  | cons h1 h2 ih =>
    intro a b g hab
    unfold nodeLoop
    rw [hab.hasSub (pat := "@arcs".toList) (by decide) (by decide), hab.hasSub (pat := "label".toList) (by decide) (by decide),
      hab.strip]
    split
    · exact Or.inr ⟨g, _, _, rfl, rfl, .cons h1 h2⟩
    · exact ih _ h1

theorem arcLoop_same {ls ls' : List Text} (h : List.Forall₂ SameLine ls ls') : ∀ g : NxGraph,
    (∃ x, arcLoop g ls' = .exc x ∧ arcLoop g ls = .exc x) ∨ ∃ g' a b r r', arcLoop g ls' = .ok (g', b, r') ∧
      arcLoop g ls = .ok (g', a, r) ∧ SameLine a b ∧ List.Forall₂ SameLine r r' := by
  induction h with
  | nil => exact fun g => Or.inr ⟨g, [], [], [], [], rfl, rfl, Or.inl rfl, .nil⟩
  | cons h1 h2 ih =>
    intro g
    unfold arcLoop
    rw [h1.hasSub (pat := "@attributes".toList) (by decide) (by decide),
      h1.hasSub (pat := "label".toList) (by decide) (by decide), h1.strip]
    split
    · exact Or.inr ⟨g, _, _, _, _, rfl, rfl, h1, h2⟩
    · split
      · exact ih g
      · split
        · exact ih _
        · exact Or.inl ⟨_, rfl, rfl⟩

theorem readMark_same {a b : Text} (h : SameLine a b) {key : Text} (h0 : key ≠ []) (h1 : '\n' ∉ key) (m : Text)
    (g : NxGraph) : readMark key m a g = readMark key m b g := by
  unfold readMark
  rw [h.hasSub h0 h1, h.strip]

theorem readLines_same {ls ls' : List Text} (h : List.Forall₂ SameLine ls ls') : readLines ls = readLines ls' := by
  have hhead : ∀ {r r' : List Text}, List.Forall₂ SameLine r r' → SameLine (r.headD []) (r'.headD []) := by
    intro r r' h
    cases h with
    | nil => exact Or.inl rfl
    | cons h _ => exact h
  have h1 : SameLine (ls.getD 1 []) (ls'.getD 1 []) := by
    cases h with
    | nil => exact Or.inl rfl
    | cons _ h =>
      cases h with
      | nil => exact Or.inl rfl
      | cons h _ => exact h
  have h2 : List.Forall₂ SameLine (ls.drop 2) (ls'.drop 2) := by
    cases h with
    | nil => exact .nil
    | cons _ h =>
      cases h with
      | nil => exact .nil
      | cons _ h => exact h
  unfold readLines
  rcases nodeLoop_same h2 {} h1 with ⟨e1, e2⟩ | ⟨g, r, r', e1, e2, hr⟩
  · rw [e1, e2]
  · rw [e1, e2, Outcome.ok_bind, Outcome.ok_bind]
    dsimp only
    rcases arcLoop_same hr g with ⟨x, e1, e2⟩ | ⟨g', a, b, r, r', e1, e2, hab, hr⟩
    · rw [e1, e2]
    · rw [e1, e2, Outcome.ok_bind, Outcome.ok_bind]
      dsimp only
      rw [readMark_same hab (by decide) (by decide)]
      congr 1
      funext g
      exact readMark_same (hhead hr) (by decide) (by decide) _ _

/-! ### the loops on the lines of the writer -/

theorem decimal_ne_nil (i : ℕ) : decimal i ≠ [] := Nat.toDigits_ne_nil

theorem decimal_injective : Function.Injective decimal := fun i j h => by
  have := congrArg (Nat.ofDigitChars 10 · 0) h
  simpa [decimal, Nat.ofDigitChars_toDigits] using this

theorem decimal_number (i : ℕ) : NumberText (decimal i) := by
  refine ⟨decimal_ne_nil i, fun c h => ?_⟩
  have := Nat.isDigit_of_mem_toDigits (by norm_num) le_rfl h
  simp only [Char.isDigit, Bool.and_eq_true, decide_eq_true_eq, ge_iff_le] at this
  have h1 : 48 ≤ c.toNat := this.1
  have h2 : c.toNat ≤ 57 := this.2
  have h3 : c = Char.ofNat c.toNat := by simp
  rw [h3]
  generalize c.toNat = k at h1 h2
  interval_cases k <;> decide

theorem _root_.PSP.Spec.NumberText.not_mem {t : Text} (h : NumberText t) {c : Char}
    (hc : c ∉ ['0', '1', '2', '3', '4', '5', '6', '7', '8', '9', '.', 'e', '+', '-']) : c ∉ t := fun h1 => hc (h.2 c h1)

theorem _root_.PSP.Spec.NumberText.blank {t : Text} (h : NumberText t) : ∀ c ∈ t, isBlank c = false := fun c hc => by
  have := h.2 c hc
  revert c
  have : ∀ c ∈ ['0', '1', '2', '3', '4', '5', '6', '7', '8', '9', '.', 'e', '+', '-'], isBlank c = false := by decide
  exact fun c _ hc => this c hc

theorem _root_.PSP.Spec.NumberText.strip {t : Text} (h : NumberText t) : pyStrip t = t :=
  strip_id (fun c hc => h.blank c (List.mem_of_mem_head? hc)) (fun c hc => h.blank c (List.mem_of_mem_getLast? hc))

theorem nodeLoop_nodes (g : NxGraph) (rest : List Text) : ∀ (k i : ℕ), (∀ j, i ≤ j → decimal j ∉ g.nodes) →
    ∀ st ls, (List.range' i k).map decimal ++ "@arcs".toList :: rest = st :: ls →
    nodeLoop g st ls = .ok ({ g with nodes := g.nodes ++ (List.range' i k).map decimal }, rest) := by
  intro k
  induction k generalizing g with
  | zero =>
    intro i _ st ls h
    simp only [List.range'_zero, List.map_nil, List.nil_append, List.cons.injEq] at h
    obtain ⟨rfl, rfl⟩ := h
    cases rest with
    | nil => simp [nodeLoop, hasSub]
    | cons a l => simp [nodeLoop, hasSub]
  | succ k ih =>
    intro i hi st ls h
    rw [List.range'_succ, List.map_cons, List.cons_append, List.cons.injEq] at h
    obtain ⟨rfl, hls⟩ := h
    have hn := decimal_number i
    cases ls with
    | nil => simp at hls
    | cons a ls =>
      rw [nodeLoop, not_hasSub (c := '@') (by decide) (hn.not_mem (by decide)),
        not_hasSub (c := 'l') (by decide) (hn.not_mem (by decide)), hn.strip]
      rw [if_neg (by simp), if_neg (by simp)]
      have e : g.addNode (decimal i) = { g with nodes := g.nodes ++ [decimal i] } := by
        unfold NxGraph.addNode
        rw [if_neg (hi i le_rfl)]
      rw [e, ih { g with nodes := g.nodes ++ [decimal i] } (i + 1) ?_ a ls hls, List.range'_succ, List.map_cons]
      · simp
      · intro j hj hmem
        rcases List.mem_append.1 hmem with h1 | h1
        · exact hi j (by omega) h1
        · have := decimal_injective (List.mem_singleton.1 h1)
          omega

/-- The edges that the lines of the arcs stand for. -/
def pairEdges (A : ℕ → ℕ → ℚ) (str : ℚ → Text) (ps : List (ℕ × ℕ)) : List ((Text × Text) × Text) :=
  (ps.filter fun p => ¬ A p.1 p.2 < 1 / 10000000000).map fun p => ((decimal p.1, decimal p.2), str (A p.1 p.2))

theorem join_four (a b c d : Text) : strJoin '\t' [a, b, c, d] = a ++ '\t' :: (b ++ '\t' :: (c ++ '\t' :: d)) := rfl

theorem arcLine_read {a b c d : Text} (ha : NumberText a) (hb : NumberText b) (hc : NumberText c) (hd : NumberText d) :
    '\n' ∉ strJoin '\t' [a, b, c, d] ∧ strJoin '\t' [a, b, c, d] ≠ [] ∧
    hasSub "@attributes".toList (strJoin '\t' [a, b, c, d]) = false ∧
    hasSub "label".toList (strJoin '\t' [a, b, c, d]) = false ∧
    pySplit '\t' (pyStrip (strJoin '\t' [a, b, c, d])) = [a, b, c, d] := by
  have hx : ∀ x, x ∉ ['0', '1', '2', '3', '4', '5', '6', '7', '8', '9', '.', 'e', '+', '-'] → x ≠ '\t' →
      x ∉ strJoin '\t' [a, b, c, d] := by
    intro x h1 h2 h3
    rw [join_four] at h3
    simp only [List.mem_append, List.mem_cons] at h3
    rcases h3 with h3 | h3 | h3 | h3 | h3 | h3 | h3
    · exact ha.not_mem h1 h3
    · exact h2 h3
    · exact hb.not_mem h1 h3
    · exact h2 h3
    · exact hc.not_mem h1 h3
    · exact h2 h3
    · exact hd.not_mem h1 h3
  refine ⟨hx _ (by decide) (by decide), ?_, not_hasSub (c := '@') (by decide) (hx _ (by decide) (by decide)),
    not_hasSub (c := 'l') (by decide) (hx _ (by decide) (by decide)), ?_⟩
  · rw [join_four]; simp
  · have hs : pyStrip (strJoin '\t' [a, b, c, d]) = strJoin '\t' [a, b, c, d] := by
      apply strip_id
      · intro x hx
        rw [join_four, List.head?_append_of_ne_nil _ ha.1] at hx
        exact ha.blank x (List.mem_of_mem_head? hx)
      · intro x hx
        rw [join_four] at hx
        have e : a ++ '\t' :: (b ++ '\t' :: (c ++ '\t' :: d)) = (a ++ '\t' :: (b ++ '\t' :: (c ++ ['\t']))) ++ d := by simp
        rw [e, List.getLast?_append_of_ne_nil _ hd.1] at hx
        exact hd.blank x (List.mem_of_mem_getLast? hx)
    have ht : '\t' ∉ ['0', '1', '2', '3', '4', '5', '6', '7', '8', '9', '.', 'e', '+', '-'] := by decide
    rw [hs, join_four, split_append (ha.not_mem ht), split_append (hb.not_mem ht), split_append (hc.not_mem ht),
      split_none (hd.not_mem ht)]

theorem arcLoop_arcs {A : ℕ → ℕ → ℚ} {str : ℚ → Text} (hstr : ∀ x, NumberText (str x)) {g : NxGraph} {ps : List (ℕ × ℕ)}
    (hnodup : ps.Nodup) (hmem : ∀ p ∈ ps, decimal p.1 ∈ g.nodes ∧ decimal p.2 ∈ g.nodes)
    (hnew : ∀ p ∈ ps, (decimal p.1, decimal p.2) ∉ g.edges.map Prod.fst) (cnt : ℕ) (rest : List Text) :
    arcLoop g (arcLines A str cnt ps ++ rest) = arcLoop { g with edges := g.edges ++ pairEdges A str ps } rest := by
  induction ps generalizing g cnt with
  | nil => simp [arcLines, pairEdges]
  | cons p ps ih =>
    obtain ⟨i, j⟩ := p
    rw [List.nodup_cons] at hnodup
    rw [arcLines]
    by_cases hA : A i j < 1 / 10000000000
    · rw [if_pos hA, ih hnodup.2 (fun p hp => hmem p (List.mem_cons_of_mem _ hp))
        (fun p hp => hnew p (List.mem_cons_of_mem _ hp))]
      have : pairEdges A str ((i, j) :: ps) = pairEdges A str ps := by
        unfold pairEdges
        rw [List.filter_cons, if_neg (by simpa using hA)]
      rw [this]
    · rw [if_neg hA, List.cons_append, arcLoop]
      obtain ⟨-, -, h1, h2, h3⟩ := arcLine_read (decimal_number i) (decimal_number j) (decimal_number cnt) (hstr (A i j))
      rw [h1, if_neg (by simp), h2, if_neg (by simp), h3]
      dsimp only
      have hm := hmem (i, j) (by simp)
      have e : g.addEdge (decimal i) (decimal j) (str (A i j)) =
          { g with edges := g.edges ++ [((decimal i, decimal j), str (A i j))] } := by
        unfold NxGraph.addEdge NxGraph.addNode
        rw [if_pos hm.1, if_pos hm.2]
        dsimp only
        rw [if_neg (hnew (i, j) (by simp))]
      rw [e, ih (g := { g with edges := g.edges ++ [((decimal i, decimal j), str (A i j))] }) hnodup.2 (fun p hp => hmem p (List.mem_cons_of_mem _ hp)) ?_ (cnt + 1)]
      · have : pairEdges A str ((i, j) :: ps) = ((decimal i, decimal j), str (A i j)) :: pairEdges A str ps := by
          unfold pairEdges
          rw [List.filter_cons, if_pos (by simpa using hA), List.map_cons]
        rw [this]
        simp
      · intro p hp hc
        rw [List.map_append, List.mem_append] at hc
        rcases hc with hc | hc
        · exact hnew p (List.mem_cons_of_mem _ hp) hc
        · simp only [List.map_cons, List.map_nil, List.mem_singleton, Prod.mk.injEq] at hc
          have : p = (i, j) := Prod.ext (decimal_injective hc.1) (decimal_injective hc.2)
          exact hnodup.1 (this ▸ hp)

theorem mem_upperPairs {n : ℕ} {p : ℕ × ℕ} : p ∈ upperPairs n ↔ p.1 < p.2 ∧ p.2 < n := by
  unfold upperPairs
  rw [List.mem_flatMap]
  constructor
  · rintro ⟨i, hi, hp⟩
    obtain ⟨j, hj, rfl⟩ := List.mem_map.1 hp
    rw [List.mem_range'_1] at hj
    rw [List.mem_range] at hi
    dsimp only
    omega
  · rintro ⟨h1, h2⟩
    refine ⟨p.1, List.mem_range.2 (by omega), List.mem_map.2 ⟨p.2, ?_, rfl⟩⟩
    rw [List.mem_range'_1]
    omega

theorem upperPairs_nodup (n : ℕ) : (upperPairs n).Nodup := by
  unfold upperPairs
  rw [List.nodup_flatMap]
  refine ⟨fun i _ => (List.nodup_range' (step := 1)).map fun a b h => (Prod.mk.inj h).2, ?_⟩
  refine (List.nodup_range (n := n)).imp fun {a b} hab => ?_
  intro p h1 h2
  obtain ⟨_, _, rfl⟩ := List.mem_map.1 h1
  obtain ⟨_, _, h⟩ := List.mem_map.1 h2
  exact hab (Prod.mk.inj h).1.symm

theorem arcLines_good {A : ℕ → ℕ → ℚ} {str : ℚ → Text} (hstr : ∀ x, NumberText (str x)) (ps : List (ℕ × ℕ)) (cnt : ℕ) :
    ∀ l ∈ arcLines A str cnt ps, '\n' ∉ l ∧ l ≠ [] := by
  induction ps generalizing cnt with
  | nil => simp [arcLines]
  | cons p ps ih =>
    obtain ⟨i, j⟩ := p
    rw [arcLines]
    split
    · exact ih cnt
    · intro l hl
      rcases List.mem_cons.1 hl with rfl | hl
      · have := arcLine_read (decimal_number i) (decimal_number j) (decimal_number cnt) (hstr (A i j))
        exact ⟨this.1, this.2.1⟩
      · exact ih _ l hl

/-- The lines that are written. -/
def convertLines (n : ℕ) (A : ℕ → ℕ → ℚ) (str : ℚ → Text) : List Text :=
  ["@nodes".toList, "label".toList] ++ (List.range n).map decimal ++ ["@arcs".toList, "\t\tlabel\tcapacity".toList] ++
    arcLines A str 0 (upperPairs n)

theorem convertLines_good {n : ℕ} {A : ℕ → ℕ → ℚ} {str : ℚ → Text} (hstr : ∀ x, NumberText (str x)) :
    ∀ l ∈ convertLines n A str, '\n' ∉ l ∧ l ≠ [] := by
  intro l hl
  simp only [convertLines, List.mem_append, List.mem_cons, List.not_mem_nil, or_false, List.mem_map] at hl
  rcases hl with (((rfl | rfl) | ⟨i, _, rfl⟩) | (rfl | rfl)) | hl
  · exact ⟨by decide, by decide⟩
  · exact ⟨by decide, by decide⟩
  · exact ⟨(decimal_number i).not_mem (by decide), decimal_ne_nil i⟩
  · exact ⟨by decide, by decide⟩
  · exact ⟨by decide, by decide⟩
  · exact arcLines_good hstr _ _ l hl

/-- The graph in the file. -/
def fileGraph (n : ℕ) (A : ℕ → ℕ → ℚ) (str : ℚ → Text) : NxGraph :=
  { nodes := (List.range n).map decimal, edges := pairEdges A str (upperPairs n) }

theorem read_convert {n : ℕ} {A : ℕ → ℕ → ℚ} {str : ℚ → Text} (hstr : ∀ x, NumberText (str x)) (more : List Text) :
    readLines (convertLines n A str ++ more) = (arcLoop (fileGraph n A str) more >>= fun r =>
      readMark "source".toList ['s'] r.2.1 r.1 >>= fun g => readMark "target".toList ['t'] (r.2.2.headD []) g) := by
  unfold readLines
  have h1 : (convertLines n A str ++ more).getD 1 [] = "label".toList := rfl
  have h2 : (convertLines n A str ++ more).drop 2 = (List.range' 0 n).map decimal ++ "@arcs".toList ::
      ("\t\tlabel\tcapacity".toList :: (arcLines A str 0 (upperPairs n) ++ more)) := by
    rw [← List.range_eq_range']
    simp [convertLines]
  rw [h1, h2]
  have h3 : ∀ ls : List Text, ls ≠ [] → nodeLoop {} "label".toList ls = nodeLoop {} (ls.headD []) ls.tail := by
    intro ls hls
    cases ls with
    | nil => exact absurd rfl hls
    | cons a l =>
      rw [nodeLoop, if_neg (by decide), if_pos (by decide)]
      rfl
  rw [h3 _ (by simp)]
  obtain ⟨st, ls, hsl⟩ : ∃ st ls, (List.range' 0 n).map decimal ++ "@arcs".toList ::
      ("\t\tlabel\tcapacity".toList :: (arcLines A str 0 (upperPairs n) ++ more)) = st :: ls :=
    List.exists_cons_of_ne_nil (by simp)
  rw [hsl, List.headD_cons, List.tail_cons, nodeLoop_nodes {} _ n 0 (by simp) st ls hsl, Outcome.ok_bind]
  dsimp only
  rw [arcLoop, if_neg (by decide), if_pos (by decide), arcLoop_arcs hstr (upperPairs_nodup n)]
  · rw [← List.range_eq_range']
    rfl
  · intro p hp
    rw [mem_upperPairs] at hp
    simp only [List.nil_append, ← List.range_eq_range', List.mem_map, List.mem_range]
    exact ⟨⟨p.1, by omega, rfl⟩, ⟨p.2, by omega, rfl⟩⟩
  · intro p _
    simp

theorem join_append {c : Char} {a b : List Text} (ha : a ≠ []) (hb : b ≠ []) :
    strJoin c (a ++ b) = strJoin c a ++ c :: strJoin c b := by
  induction a with
  | nil => exact absurd rfl ha
  | cons x a ih =>
    cases a with
    | nil =>
      obtain ⟨y, b, rfl⟩ := List.exists_cons_of_ne_nil hb
      rfl
    | cons y a =>
      have := ih (by simp)
      rw [List.cons_append, List.cons_append, strJoin, ← List.cons_append, this, strJoin]
      simp

/-- The graph of what `convert` writes, followed by further lines. -/
theorem toNetworkX_convert {n : ℕ} {A : ℕ → ℕ → ℚ} {str : ℚ → Text} (hstr : ∀ x, NumberText (str x)) (more : List Text)
    (hmore : ∀ l ∈ more, '\n' ∉ l ∧ l ≠ []) :
    toNetworkX (strJoin '\n' (convertLines n A str ++ more)) = (arcLoop (fileGraph n A str) more >>= fun r =>
      readMark "source".toList ['s'] r.2.1 r.1 >>= fun g => readMark "target".toList ['t'] (r.2.2.headD []) g) := by
  rw [← read_convert hstr, toNetworkX]
  have hgood : ∀ l ∈ convertLines n A str ++ more, '\n' ∉ l ∧ l ≠ [] := by
    intro l hl
    rcases List.mem_append.1 hl with h | h
    · exact convertLines_good hstr l h
    · exact hmore l h
  exact readLines_same (lines_join (fun l hl => (hgood l hl).1) fun l hl => (hgood l (List.mem_of_mem_getLast? hl)).2)

/-- Without a line of arcs the reader never ends. -/
theorem nodeLoop_endless {ls : List Text} (h : ∀ l ∈ ls, hasSub "@arcs".toList l = false) : ∀ (g : NxGraph) (st : Text),
    hasSub "@arcs".toList st = false → nodeLoop g st ls = .fuel := by
  induction ls with
  | nil => intro g st hst; rw [nodeLoop, hst]; rfl
  | cons a ls ih =>
    intro g st hst
    rw [nodeLoop, hst, if_neg (by simp)]
    exact ih (fun l hl => h l (List.mem_cons_of_mem _ hl)) _ _ (h a (by simp))

end PSP.Theory
