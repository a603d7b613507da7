import Verif.Theory.RoundedRound

/-!
# For integral weights the functors of `agg_psp` have no rounding errors
-/

namespace PSP.Theory

open PSP.Model PSP.Spec

/-- A sum of integers. -/
def Integral (x : ℚ) : Prop := ∃ k : ℤ, x = k

theorem Integral.add {x y : ℚ} (hx : Integral x) (hy : Integral y) : Integral (x + y) := by
  obtain ⟨a, rfl⟩ := hx
  obtain ⟨b, rfl⟩ := hy
  exact ⟨a + b, by push_cast; rfl⟩

theorem Integral.neg {x : ℚ} (hx : Integral x) : Integral (-x) := by
  obtain ⟨a, rfl⟩ := hx
  exact ⟨-a, by push_cast; rfl⟩

theorem Integral.sub {x y : ℚ} (hx : Integral x) (hy : Integral y) : Integral (x - y) := by
  rw [sub_eq_add_neg]; exact hx.add hy.neg

theorem integral_zero : Integral 0 := ⟨0, by simp⟩

theorem integral_sum {α : Type} (s : Finset α) (F : α → ℚ) (h : ∀ a ∈ s, Integral (F a)) : Integral (∑ a ∈ s, F a) := by
  classical
  induction s using Finset.induction_on with
  | empty => exact integral_zero
  | insert a s ha ih =>
    rw [Finset.sum_insert ha]
    exact (h a (Finset.mem_insert_self _ _)).add (ih fun b hb => h b (Finset.mem_insert_of_mem hb))

theorem integral_list (l : List ℚ) (h : ∀ a ∈ l, Integral a) : Integral l.sum := by
  induction l with
  | nil => exact integral_zero
  | cons a l ih =>
    rw [List.sum_cons]
    exact (h a List.mem_cons_self).add (ih fun b hb => h b (List.mem_cons_of_mem _ hb))

/-- Integers up to `B` are numbers of the format. -/
def ExactInts (fl : ℚ → ℚ) (B : ℚ) : Prop := ∀ x, Integral x → |x| ≤ B → fl x = x

theorem Rounds.exactInts {fl : ℚ → ℚ} {u M : ℚ} (h : Rounds fl u M) : ExactInts fl M := by
  rintro x ⟨k, rfl⟩ hx
  exact h.int k hx

variable {fl : ℚ → ℚ} {B : ℚ}

theorem flSum_ints (h : ExactInts fl B) : ∀ (l : List ℚ) (s : ℚ), Integral s → 0 ≤ s → (∀ x ∈ l, Integral x ∧ 0 ≤ x) →
    s + l.sum ≤ B → flSum fl s l = s + l.sum := by
  intro l
  induction l with
  | nil => intro s _ _ _ _; simp [flSum]
  | cons a l ih =>
    intro s hs hs0 hl hB
    have ha := hl a List.mem_cons_self
    have hl' : ∀ x ∈ l, Integral x ∧ 0 ≤ x := fun x hx => hl x (List.mem_cons_of_mem _ hx)
    have h0 : 0 ≤ l.sum := List.sum_nonneg fun x hx => (hl' x hx).2
    rw [List.sum_cons] at hB ⊢
    have e : flSum fl s (a :: l) = flSum fl (fl (s + a)) l := rfl
    rw [e, h (s + a) (hs.add ha.1) (by rw [abs_of_nonneg (by linarith [ha.2])]; linarith),
      ih (s + a) (hs.add ha.1) (by linarith [ha.2]) hl' (by linarith)]
    ring

variable {E : List Arc}

theorem incident_integral (hi : ∀ a ∈ E, Integral a.cap) (S : Finset ℕ) : Integral (incident E S) := by
  refine integral_list _ fun x hx => ?_
  obtain ⟨a, ha, rfl⟩ := List.mem_map.1 hx
  split_ifs
  · exact hi a ha
  · exact integral_zero

theorem joinFn_integral (hi : ∀ a ∈ E, Integral a.cap) (C : ℕ → Finset ℕ) (j : ℕ) (S : Finset ℕ) :
    Integral (joinFn (incident E) C j S) :=
  (incident_integral hi _).sub (integral_sum _ _ fun _ _ => incident_integral hi _)

theorem digraphEntropyF_exact (h : ExactInts fl B) {ai ao : List Arc → List Arc} (hai : ∀ l, (ai l).Perm l)
    (hao : ∀ l, (ao l).Perm l) {V : List ℕ} (hE : ∀ a ∈ E, a.src < a.dst) (h0 : NonnegE E)
    (hi : ∀ a ∈ E, Integral a.cap) (hB : (E.map Arc.cap).sum ≤ B) {S : List ℕ} (hS : S.Nodup) :
    (digraphEntropyF fl ai ao ⟨V, E⟩).val S = incident E S.toFinset := by
  obtain ⟨h1, h2, -⟩ := entropyTerms_facts hai hao (V := V) hE h0 hS
  have := flSum_ints h (entropyTerms ai ao ⟨V, E⟩ S) 0 integral_zero le_rfl (fun x hx => by
    obtain ⟨a, ha, e⟩ := (h2 x hx).2
    exact ⟨e ▸ hi a ha, (h2 x hx).1⟩) (by rw [zero_add, h1]; exact (incident_le h0 _).trans hB)
  rw [zero_add, h1] at this
  exact this

/-- The functor of round `j` is computed without errors. -/
theorem join_exact (h : ExactInts fl B) {ai ao : List Arc → List Arc} (hai : ∀ l, (ai l).Perm l)
    (hao : ∀ l, (ao l).Perm l) {n : ℕ} (hE : ∀ a ∈ E, a.src < a.dst) (h0 : NonnegE E)
    (hi : ∀ a ∈ E, Integral a.cap) (hB : 2 * (E.map Arc.cap).sum ≤ B) {R : ℕ → ℕ → Prop} {L : List (List ℕ)}
    (hc : IsClustering n R L) {j : ℕ} (hj : j < L.length) :
    Computes (sfJoin (sfContractF fl (digraphEntropyF fl ai ao ⟨List.range n, E⟩) L) j)
      (joinFn (incident E) (blockAt L) j) := by
  intro S hS hSj'
  have hSj : ∀ b ∈ S, b < j := hSj'
  clear hSj'
  set W := (E.map Arc.cap).sum with hW
  have hW0 : 0 ≤ W := (incident_nonneg h0 ∅).trans (incident_le h0 ∅)
  set f := digraphEntropyF fl ai ao ⟨List.range n, E⟩ with hf
  have hmap : S.map (fun b => if b < j then b else 0) = S := by
    conv_rhs => rw [← List.map_id S]
    exact List.map_congr_left fun b hb => if_pos (hSj b hb)
  have hBL : ∀ b ∈ S ++ [j], b < L.length := by
    intro b hb
    rcases List.mem_append.1 hb with hb | hb
    · exact (hSj b hb).trans hj
    · rw [List.mem_singleton] at hb; omega
  have hnd : (S ++ [j]).Nodup := by
    rw [List.nodup_append]
    refine ⟨hS, by simp, ?_⟩
    intro a ha b hb
    rw [List.mem_singleton] at hb
    have := hSj a ha
    omega
  have hset : (S ++ [j]).toFinset = insert j S.toFinset := by
    ext v; simp
  have hTk : insert j S.toFinset ⊆ Finset.range L.length := by
    intro i hi
    rw [← hset, List.mem_toFinset] at hi
    exact Finset.mem_range.2 (hBL i hi)
  obtain ⟨s1, s2⟩ := sum_incident_blocks h0 (clustering_blocks hc) hTk
  have v1 : f.val ((S ++ [j]).flatMap fun i => L.getD i []) = incident E ((insert j S.toFinset).biUnion (blockAt L)) := by
    rw [hf, digraphEntropyF_exact h hai hao hE h0 hi (by linarith) (nodup_flatMap_blocks hc.once hnd hBL),
      toFinset_flatMap_blocks, hset]
  have v2 : ((S ++ [j]).map fun i => f.val (L.getD i [])) = (S ++ [j]).map fun i => incident E (blockAt L i) := by
    refine List.map_congr_left fun b hb => ?_
    rw [hf, digraphEntropyF_exact h hai hao hE h0 hi (by linarith)
      ((List.nodup_flatten.1 hc.once).1 _ (getD_mem (hBL b hb)))]
    rfl
  have v3 : ((S ++ [j]).map fun b => incident E (blockAt L b)).sum =
      ∑ i ∈ insert j S.toFinset, incident E (blockAt L i) := by
    rw [sum_list_eq hnd, hset]
  have hU1 := incident_le h0 ((insert j S.toFinset).biUnion (blockAt L))
  have hU0 := incident_nonneg h0 ((insert j S.toFinset).biUnion (blockAt L))
  show (sfContractF fl f L).val (S.map (fun b => if b < j then b else 0) ++ [j]) = _
  rw [hmap]
  simp only [sfContractF]
  rw [v1, v2, flSum_ints h _ 0 integral_zero le_rfl (fun x hx => by
    obtain ⟨b, -, rfl⟩ := List.mem_map.1 hx
    exact ⟨incident_integral hi _, incident_nonneg h0 _⟩) (by rw [zero_add, v3]; linarith), zero_add, v3]
  have hJ := joinFn_integral hi (blockAt L) j S.toFinset
  unfold joinFn at hJ ⊢
  exact h _ hJ (by rw [abs_le]; constructor <;> linarith)

/-! ### the greedy points -/

/-- Vectors of integers up to `W`. -/
def IntVec (n : ℕ) (W : ℚ) (q : List ℚ) : Prop :=
  q.length = n ∧ ∀ i < n, Integral (q.getD i 0) ∧ |q.getD i 0| ≤ W

section greedy

variable {f : SF} {φ : Finset ℕ → ℚ} {M : ℚ}

/-- The function itself as a functor. -/
def pureSF (n : ℕ) (φ : Finset ℕ → ℚ) : SF := ⟨n, fun B => φ B.toFinset⟩

theorem pureSF_computes (n : ℕ) (φ : Finset ℕ → ℚ) : Computes (pureSF n φ) φ := fun _ _ _ => rfl

theorem greedyLoopF_exact (h : ExactInts fl B) (hMB : M ≤ B) (hf : Computes f φ) (hi : ∀ S, Integral (φ S))
    (hM : ∀ S T, S ⊆ Finset.range f.size → T ⊆ Finset.range f.size → |φ S - φ T| ≤ M) :
    ∀ (is D : List ℕ) (F F' : ℚ) (x : ℕ → ℚ), (D ++ is).Nodup → (∀ b ∈ D ++ is, b < f.size) →
    F = f.val D → F' = φ D.toFinset →
    greedyLoopF fl f.val is D F x = greedyLoop (fun B => φ B.toFinset) is D F' x := by
  intro is
  induction is with
  | nil => intro D F F' x _ _ _ _; rfl
  | cons j is ih =>
    intro D F F' x hnd hlt hF hF'
    have e : D ++ j :: is = (D ++ [j]) ++ is := by simp
    rw [e] at hnd hlt
    have hndB : (D ++ [j]).Nodup := (List.nodup_append.1 hnd).1
    have hltB : ∀ b ∈ D ++ [j], b < f.size := fun b hb => hlt b (List.mem_append_left _ hb)
    have h1 := hf D (List.nodup_append.1 hndB).1 fun b hb => hltB b (List.mem_append_left _ hb)
    have h2 := hf (D ++ [j]) hndB hltB
    have sub : ∀ C : List ℕ, (∀ b ∈ C, b < f.size) → C.toFinset ⊆ Finset.range f.size := fun C hC b hb =>
      Finset.mem_range.2 (hC b (List.mem_toFinset.1 hb))
    have h3 := hM (D ++ [j]).toFinset D.toFinset (sub _ hltB)
      (sub _ fun b hb => hltB b (List.mem_append_left _ hb))
    unfold greedyLoopF greedyLoop
    dsimp only
    have e2 : fl (-F + f.val (D ++ [j])) = -F' + φ (D ++ [j]).toFinset := by
      rw [hF, h1, h2, hF']
      exact h _ ((hi _).neg.add (hi _)) (by rw [neg_add_eq_sub]; exact h3.trans hMB)
    rw [e2]
    exact ih (D ++ [j]) _ _ _ hnd hlt rfl rfl

theorem edmondsGreedyF_exact (h : ExactInts fl B) (hMB : M ≤ B) (hf : Computes f φ) (hi : ∀ S, Integral (φ S))
    (hM : ∀ S T, S ⊆ Finset.range f.size → T ⊆ Finset.range f.size → |φ S - φ T| ≤ M) {x : List ℚ}
    (hx : x.length = f.size) {idx : List ℕ} (hs : AscendingIndexes x idx) :
    edmondsGreedyF fl f x idx = .ok (greedyPoint (pureSF f.size φ) idx) := by
  have hp : idx.Perm (List.range f.size) := by rw [← hx]; exact hs.1
  unfold edmondsGreedyF
  rw [if_neg (by rw [hx]; simp)]
  congr 1
  unfold greedyPoint
  show (List.range f.size).map _ = (List.range f.size).map _
  rw [greedyLoopF_exact h hMB hf hi hM idx [] _ _ _ (by simpa using hp.nodup_iff.2 List.nodup_range)
    (by intro b hb; simpa using hp.mem_iff.1 (by simpa using hb)) rfl rfl]
  rfl

theorem greedyLoop_integral (hi : ∀ S, Integral (φ S)) : ∀ (is D : List ℕ) (F : ℚ) (x : ℕ → ℚ), Integral F →
    (∀ i, Integral (x i)) → ∀ i, Integral (greedyLoop (fun B => φ B.toFinset) is D F x i) := by
  intro is
  induction is with
  | nil => intro D F x _ hx i; exact hx i
  | cons j is ih =>
    intro D F x hF hx
    unfold greedyLoop
    refine ih _ _ _ (hi _) fun i => ?_
    by_cases hij : i = j
    · subst hij
      rw [Function.update_self]
      exact hF.neg.add (hi _)
    · rw [Function.update_of_ne hij]
      exact hx i

theorem greedyPoints_int {n : ℕ} (hi : ∀ S, Integral (φ S)) (hφ : Submodular (Finset.range n) φ)
    (hM : ∀ S T, S ⊆ Finset.range n → T ⊆ Finset.range n → |φ S - φ T| ≤ M) {q : List ℚ}
    (hq : q ∈ greedyPoints (pureSF n φ)) : IntVec n M q := by
  obtain ⟨h1, h2⟩ := greedyPoints_spec (pureSF_computes n φ) hφ hq
  refine ⟨h1, fun i hin => ⟨?_, inBase_bound h2 hM hin⟩⟩
  unfold greedyPoints at hq
  obtain ⟨idx, -, rfl⟩ := Finset.mem_image.1 hq
  rw [greedyPoint_getD _ _ (show i < (pureSF n φ).size from hin)]
  exact greedyLoop_integral hi _ _ _ _ (hi _) (fun _ => integral_zero) i

end greedy

end PSP.Theory
