import Verif.Theory.HCRank

/-!
# Properties of the clustering classes `HC` and `CL` (C30-C33, C42)

`accepted cs` are the requests that the specification accepts (`Spec/HC.lean`); `Joined A gam` is
connectivity by the requests of `A` above the threshold.  Every theorem is about the object reached by
an arbitrary sequence of calls of `merge`.
-/

namespace PSP.Props

open PSP.Spec PSP.Model PSP.Theory Relation

/-- Example: five points, some requests are rejected. -/
def exLinks : List Link := [⟨0, 1, 5⟩, ⟨2, 3, 5⟩, ⟨1, 0, 4⟩, ⟨3, 1, 3⟩, ⟨4, 0, 9⟩]

theorem exLinks_range : InRange 5 exLinks := by decide

/-- **C30** `merge` reports exactly the accepted requests: the points were not connected and the value
does not exceed an earlier accepted one. -/
theorem C30_merge {n : ℕ} {cs : List Link} (hr : InRange n cs) {c : Link} (hi : c.i < n)
    (hj : c.j < n) : ∃ h h' b, (HC.new n).mergeAll cs = .ok h ∧
      h.merge c.i c.j c.val = .ok (h', b) ∧ (b = true ↔ Accepts (accepted cs) c) := by
  classical
  obtain ⟨h, h1, h2, h3⟩ := mergeAll_spec hr
  subst h2
  obtain ⟨h', h4, -, -⟩ := merge_spec h3 c.val hi hj
  exact ⟨h, h', _, h1, h4, by simp⟩

/-- **C30** After any calls of `merge`, `getPartition(gamma)` returns the connected components of the
accepted requests above `gamma`; every point occurs exactly once. -/
theorem C30_partition {n : ℕ} (hn : 0 < n) {cs : List Link} (hr : InRange n cs)
    (gam : WithBot ℚ) : ∃ h L, (HC.new n).mergeAll cs = .ok h ∧ h.getPartition gam = .ok L ∧
      IsClustering n (Joined (accepted cs) gam) L := by
  obtain ⟨h, h1, h2, h3⟩ := mergeAll_spec hr
  subst h2
  obtain ⟨L, h4, h5⟩ := getPartition_spec h3.forest hn gam
  exact ⟨h, L, h1, h4, h5.congr (h3.fj gam)⟩

/-- **C30** `getCoarsestPartition` returns the components of all accepted requests. -/
theorem C30_coarsest {n : ℕ} (hn : 0 < n) {cs : List Link} (hr : InRange n cs) :
    ∃ h L, (HC.new n).mergeAll cs = .ok h ∧ h.getCoarsestPartition = .ok L ∧
      IsClustering n (Joined (accepted cs) ⊥) L :=
  C30_partition hn hr ⊥

/-- **C30** `getCluster(i, gamma)` lists the points connected to `i` above `gamma`, each once. -/
theorem C30_cluster {n : ℕ} {cs : List Link} (hr : InRange n cs) {i : ℕ} (hi : i < n)
    (gam : WithBot ℚ) : ∃ h B, (HC.new n).mergeAll cs = .ok h ∧ h.getCluster i gam = .ok B ∧
      B.Nodup ∧ ∀ v, v ∈ B ↔ Joined (accepted cs) gam i v := by
  obtain ⟨h, h1, h2, h3⟩ := mergeAll_spec hr
  subst h2
  obtain ⟨B, h4, h5⟩ := getCluster_spec h3.forest hi gam
  exact ⟨h, B, h1, h4, h5.nodup, fun v => (h5.mem v).trans (h3.fj gam i v)⟩

/-- **C30** `getCriticalValues()` lists, in strictly descending order, exactly the thresholds at which
the clustering changes. -/
theorem C30_values {n : ℕ} {cs : List Link} (hr : InRange n cs) :
    ∃ h, (HC.new n).mergeAll cs = .ok h ∧ h.getCriticalValues.Pairwise (· > ·) ∧
      ∀ v : ℚ, v ∈ h.getCriticalValues ↔ ∃ i j, i < n ∧ j < n ∧ i ≠ j ∧
        ∀ gam : WithBot ℚ, Joined (accepted cs) gam i j ↔ gam < (v : WithBot ℚ) := by
  obtain ⟨h, h1, h2, h3⟩ := mergeAll_spec hr
  subst h2
  refine ⟨h, h1, h3.sorted, fun v => ⟨fun hv => ?_, ?_⟩⟩
  · obtain ⟨x, hx, hp, hw⟩ := h3.used v hv
    refine ⟨x, h.parent x, hx, h3.forest.lt x hx, hp.symm, fun gam => ?_⟩
    rw [← h3.fj, fj_parent h3.forest hp, hw]
  · rintro ⟨i, j, hi, hj, hij, hgam⟩
    obtain ⟨s, -, hs⟩ := similarity_spec h3.forest hi hj hij
    rcases hs with ⟨hno, -⟩ | ⟨w, -, hw, x, hp, hx⟩
    · exact absurd ((h3.fj _ _ _).2 ((hgam ⊥).2 (WithBot.bot_lt_coe v))) hno
    · obtain ⟨g, hg, hgx⟩ := h3.values x hp
      have e : v = w := by
        have e1 : ∀ gam : WithBot ℚ, gam < (v : WithBot ℚ) ↔ gam < (w : WithBot ℚ) := fun gam =>
          (hgam gam).symm.trans ((h3.fj gam i j).symm.trans (hw gam))
        rcases lt_trichotomy v w with hlt | he | hlt
        · exact absurd ((e1 v).2 (WithBot.coe_lt_coe.2 hlt)) (lt_irrefl _)
        · exact he
        · exact absurd ((e1 w).1 (WithBot.coe_lt_coe.2 hlt)) (lt_irrefl _)
      have : (g : WithBot ℚ) = v := by rw [← hgx, hx, e]
      rw [← WithBot.coe_inj.1 this]; exact hg

/-- **C30** `HC(0)` does not throw, and its `getPartition` writes outside an empty vector. -/
theorem C30_empty (gam : WithBot ℚ) : ∃ e, (HC.new 0).getPartition gam = .ub e := ⟨_, rfl⟩

/-- The run of the example. -/
def exPartition (gam : WithBot ℚ) : Outcome (List (List ℕ)) := do
  let h ← (HC.new 5).mergeAll exLinks
  h.getPartition gam

example : exPartition ((3 : ℚ) : WithBot ℚ) = .ok [[0, 1], [2, 3], [4]] := by decide +kernel
example : exPartition ((2 : ℚ) : WithBot ℚ) = .ok [[0, 1, 3, 2], [4]] := by decide +kernel
example : exPartition ⊥ = .ok [[0, 1, 3, 2], [4]] := by decide +kernel
example : (do let h ← (HC.new 5).mergeAll exLinks; return h.getCriticalValues) =
    Outcome.ok [5, 3] := by decide +kernel
/-- The third request of the example is rejected because its points are connected. -/
example : (do let h ← (HC.new 5).mergeAll (exLinks.take 2)
              return (← h.merge 1 0 4).2) = Outcome.ok false := by decide +kernel
/-- The last request is rejected because its value is too large. -/
example : (do let h ← (HC.new 5).mergeAll (exLinks.take 4)
              return (← h.merge 4 0 9).2) = Outcome.ok false := by decide +kernel

/-- **C31** `similarity(i, j)` is infinite for `i = j`; for different points it is the value below which
they are connected, and 0 if they never are. -/
theorem C31_similarity {n : ℕ} {cs : List Link} (hr : InRange n cs) {i j : ℕ} (hi : i < n)
    (hj : j < n) : ∃ h s, (HC.new n).mergeAll cs = .ok h ∧ h.similarity i j = .ok s ∧
      (i = j → s = ⊤) ∧
      (i ≠ j → ¬ Joined (accepted cs) ⊥ i j → s = ((0 : ℚ) : WithBot ℚ)) ∧
      (i ≠ j → Joined (accepted cs) ⊥ i j → ∃ w : ℚ, s = (w : WithBot ℚ) ∧
        ∀ gam : WithBot ℚ, Joined (accepted cs) gam i j ↔ gam < (w : WithBot ℚ)) := by
  obtain ⟨h, h1, h2, h3⟩ := mergeAll_spec hr
  subst h2
  by_cases hij : i = j
  · subst hij
    refine ⟨h, ⊤, h1, ?_, fun _ => rfl, fun hh => absurd rfl hh, fun hh => absurd rfl hh⟩
    rw [HC.similarity, HC.similarityAux, if_pos rfl]
  · obtain ⟨s, h4, h5⟩ := similarity_spec h3.forest hi hj hij
    refine ⟨h, s, h1, h4, fun hh => absurd hh hij, fun _ hno => ?_, fun _ hyes => ?_⟩
    · rcases h5 with ⟨-, hs⟩ | ⟨w, -, hw, -⟩
      · exact hs
      · exact absurd ((h3.fj _ _ _).1 ((hw ⊥).2 (WithBot.bot_lt_coe w))) hno
    · rcases h5 with ⟨hno, -⟩ | ⟨w, hs, hw, -⟩
      · exact absurd ((h3.fj _ _ _).2 hyes) hno
      · exact ⟨w, hs, fun gam => (h3.fj gam i j).symm.trans (hw gam)⟩

/-- The run of the example. -/
def exSimilarity (i j : ℕ) : Outcome (WithTop (WithBot ℚ)) := do
  let h ← (HC.new 5).mergeAll exLinks
  h.similarity i j

example : exSimilarity 0 1 = .ok ((5 : ℚ) : WithBot ℚ) := by decide +kernel
example : exSimilarity 0 2 = .ok ((3 : ℚ) : WithBot ℚ) := by decide +kernel
example : exSimilarity 0 4 = .ok ((0 : ℚ) : WithBot ℚ) := by decide +kernel

/-- **C32** (partial) `getCriticalValues(i)` is strictly descending, every value in it is a threshold
where the cluster of `i` changes, and above all of them the cluster is `{i}`.  Missing: that every
change is listed, which is false, see `C32_violated`. -/
theorem C32_partial {n : ℕ} {cs : List Link} (hr : InRange n cs) {i : ℕ} (hi : i < n) :
    ∃ h l, (HC.new n).mergeAll cs = .ok h ∧ h.getCriticalValuesOf i = .ok l ∧
      l.Pairwise (· > ·) ∧
      (∀ v ∈ l, ∃ j, j < n ∧ j ≠ i ∧
        ∀ gam : WithBot ℚ, Joined (accepted cs) gam i j ↔ gam < v) ∧
      (∀ j gam, j ≠ i → Joined (accepted cs) gam i j → ∃ v ∈ l, gam < v) := by
  obtain ⟨h, h1, h2, h3⟩ := mergeAll_spec hr
  subst h2
  obtain ⟨l, h4, h5, h6⟩ := getCriticalValuesOf_spec h3.forest hi
  refine ⟨h, l, h1, h4, h5, fun v hv => ?_, fun j gam hj hjo => ?_⟩
  · obtain ⟨j, k1, k2, k3⟩ := criticalValuesOf_sound h3.forest hi ((h6 v).1 hv)
    exact ⟨j, k1, k2, fun gam => (h3.fj gam i j).symm.trans (k3 gam)⟩
  · obtain ⟨v, k1, k2⟩ := criticalValuesOf_first h3.forest hj ((h3.fj gam i j).2 hjo)
    exact ⟨v, (h6 v).2 k1, k2⟩

/-- **C32** is violated: after `merge(0,1,5)` and `merge(1,2,3)` the cluster of 0 changes at 3, but
`getCriticalValues(0)` is `[5]`. -/
theorem C32_violated : ∃ h, (HC.new 3).mergeAll [⟨0, 1, 5⟩, ⟨1, 2, 3⟩] = .ok h ∧
    h.getCluster 0 ((3 : ℚ) : WithBot ℚ) = .ok [0, 1] ∧
    h.getCluster 0 ((2 : ℚ) : WithBot ℚ) = .ok [0, 1, 2] ∧
    h.getCriticalValuesOf 0 = .ok [((5 : ℚ) : WithBot ℚ)] := by
  obtain ⟨h, h1, -, -⟩ := mergeAll_spec (n := 3) (cs := [⟨0, 1, 5⟩, ⟨1, 2, 3⟩]) (by decide)
  have key : ∀ {β : Type} (f : HC → Outcome β) (r : Outcome β),
      ((HC.new 3).mergeAll [⟨0, 1, 5⟩, ⟨1, 2, 3⟩] >>= f) = r → f h = r := by
    intro β f r hh; rw [h1] at hh; exact hh
  exact ⟨h, h1, key (fun h => h.getCluster 0 ((3 : ℚ) : WithBot ℚ)) _ (by decide +kernel),
    key (fun h => h.getCluster 0 ((2 : ℚ) : WithBot ℚ)) _ (by decide +kernel),
    key (fun h => h.getCriticalValuesOf 0) _ (by decide +kernel)⟩

/-- **C42** `find` makes at most `log₂ n + 1` calls and `similarity` at most `2 log₂ n + 1`: the
documented logarithmic complexity. -/
theorem C42_logarithmic {n : ℕ} {cs : List Link} (hr : InRange n cs) :
    ∃ h, (HC.new n).mergeAll cs = .ok h ∧
      (∀ i, i < n → ∃ r, h.findAux (Nat.log 2 n + 1) i = .ok r) ∧
      (∀ i j, i < n → j < n → ∃ s, h.similarityAux (2 * Nat.log 2 n + 1) i j = .ok s) := by
  obtain ⟨h, h1, h2, h3⟩ := mergeAll_spec hr
  have hrank := mergeAll_rank cs (HCInv.new n) (RankInv.new n) hr h1
  subst h2
  refine ⟨h, h1, fun i hi => ?_, fun i j hi hj => ?_⟩
  · obtain ⟨r, k1, -⟩ := find_log h3.forest hrank hi
    exact ⟨r, k1⟩
  · exact similarityAux_log h3.forest (N := Nat.log 2 h.n)
      (fun i hi => rank_le_log' h3.forest hrank hi) _ i j hi hj (by omega)

/-- The edges of the input graph of `CL`. -/
def edges (first second : List ℕ) (info : List ℚ) : List Link :=
  List.zipWith (fun p w => ⟨p.1, p.2, w⟩) (first.zip second) info

theorem edges_eq {first second : List ℕ} {info : List ℚ} (h1 : first.length = info.length)
    (h2 : second.length = info.length) : edges first second info =
      (List.range info.length).map fun k => ⟨first.getD k 0, second.getD k 0, info.getD k 0⟩ := by
  refine List.ext_getElem (by simp [edges, h1, h2]) fun k k1 k2 => ?_
  have hk : k < info.length := by simpa using k2
  have hk1 : k < first.length := by omega
  have hk2 : k < second.length := by omega
  simp [edges, List.getD_eq_getElem?_getD, hk, hk1, hk2]

theorem joined_perm {A B : List Link} (hp : A.Perm B) (gam : WithBot ℚ) (x y : ℕ) :
    Joined A gam x y ↔ Joined B gam x y :=
  eqvGen_congr (fun _ _ ⟨a, ha, hh⟩ => EqvGen.rel _ _ ⟨a, hp.mem_iff.1 ha, hh⟩)
    (fun _ _ ⟨a, ha, hh⟩ => EqvGen.rel _ _ ⟨a, hp.mem_iff.2 ha, hh⟩) x y

/-- **C33** `CL` is single linkage: whatever order `std::sort` gives to equal weights, the clusters at
`gamma` are the connected components of the edges heavier than `gamma`. -/
theorem C33_single_linkage {n : ℕ} (hn : 0 < n) {first second : List ℕ} {info : List ℚ}
    (h1 : first.length = info.length) (h2 : second.length = info.length)
    (hr : InRange n (edges first second info)) {idx : List ℕ} (hidx : SortedIndexes info idx)
    (gam : WithBot ℚ) : ∃ h L, CL.new n first second info idx = .ok h ∧
      h.getPartition gam = .ok L ∧
      IsClustering n (Joined (edges first second info) gam) L := by
  set cs : List Link := idx.map fun k => ⟨first.getD k 0, second.getD k 0, info.getD k 0⟩ with hcs
  have hperm : cs.Perm (edges first second info) := by
    rw [edges_eq h1 h2]
    exact hidx.1.map _
  have hr' : InRange n cs := fun c hc => hr c (hperm.mem_iff.1 hc)
  have hnew : CL.new n first second info idx = (HC.new n).mergeAll cs := by
    unfold CL.new
    refine clLoop_eq first second info idx _ fun k hk => ?_
    have := List.mem_range.1 (hidx.1.mem_iff.1 hk)
    omega
  obtain ⟨h, L, k1, k2, k3⟩ := C30_partition hn hr' gam
  refine ⟨h, L, hnew.trans k1, k2, k3.congr fun u v => ?_⟩
  have hsort : cs.Pairwise fun a b => b.val ≤ a.val := by
    have := hidx.2
    rw [List.pairwise_map] at this
    rw [hcs, List.pairwise_map]
    exact this
  have := joined_acceptedFrom cs [] (by simp) hsort gam u v
  rw [List.nil_append] at this
  exact this.trans (joined_perm hperm gam u v)

example : SortedIndexes [1, 3, 2, 3] [3, 1, 2, 0] := by
  refine ⟨by decide, by decide +kernel⟩
/-- `std::sort` always has a possible result. -/
theorem sortedIndexes_exists (v : List ℚ) : ∃ idx, SortedIndexes v idx := by
  refine ⟨(List.range v.length).mergeSort (fun a b => decide (v.getD b 0 ≤ v.getD a 0)),
    List.mergeSort_perm _ _, ?_⟩
  rw [List.pairwise_map]
  have := List.pairwise_mergeSort (le := fun a b => decide (v.getD b 0 ≤ v.getD a 0))
    (by intro a b c hab hbc; simp only [decide_eq_true_eq] at *; exact hbc.trans hab)
    (by intro a b; simp only [Bool.or_eq_true, decide_eq_true_eq]; exact le_total _ _)
    (List.range v.length)
  exact this.imp (by intro a b hab; simpa using hab)

example : InRange 4 (edges [0, 1, 2, 0] [1, 2, 3, 2] [1, 3, 2, 3]) := by decide +kernel
example : (do let h ← CL.new 4 [0, 1, 2, 0] [1, 2, 3, 2] [1, 3, 2, 3] [3, 1, 2, 0]
              h.getPartition ((2 : ℚ) : WithBot ℚ)) = .ok [[0, 2, 1], [3]] := by decide +kernel

/-- **C33** Nothing is checked: if a vector is too short or a node index too large, `CL` reads or writes
outside its vectors. -/
theorem C33_unchecked {n : ℕ} {first second : List ℕ} {info : List ℚ} {idx : List ℕ}
    (hidx : SortedIndexes info idx) {k : ℕ} (hk : k < info.length)
    (hbad : ¬ ∃ a b, first[k]? = some a ∧ second[k]? = some b ∧ a < n ∧ b < n) :
    ∃ e, CL.new n first second info idx = .ub e :=
  clLoop_bad idx (HCInv.new n) ⟨k, hidx.1.mem_iff.2 (List.mem_range.2 hk), hbad⟩

/-- **C33** The constructor from an entropy function: the clusters at `gamma` are the connected
components of the pairs with mutual information above `gamma`. -/
theorem C33_entropy {n : ℕ} (hn : 0 < n) (hf : List ℕ → ℚ) {idx : List ℕ}
    (hidx : SortedIndexes ((clPairs n).map fun p => hf [p.1] + hf [p.2] - hf [p.1, p.2]) idx)
    (gam : WithBot ℚ) : ∃ h L, CL.ofEntropy hf n idx = .ok h ∧ h.getPartition gam = .ok L ∧
      IsClustering n (EqvGen fun x y => x < n ∧ y < x ∧
        gam < ((hf [x] + hf [y] - hf [x, y] : ℚ) : WithBot ℚ)) L := by
  have hmem : ∀ a b, (a, b) ∈ clPairs n ↔ a < n ∧ b < a := by
    intro a b
    simp [clPairs]
  have hE : ∀ l, l ∈ edges ((clPairs n).map Prod.fst) ((clPairs n).map Prod.snd)
      ((clPairs n).map fun p => hf [p.1] + hf [p.2] - hf [p.1, p.2]) ↔
      ∃ a b, a < n ∧ b < a ∧ l = ⟨a, b, hf [a] + hf [b] - hf [a, b]⟩ := by
    intro l
    have : edges ((clPairs n).map Prod.fst) ((clPairs n).map Prod.snd)
        ((clPairs n).map fun p => hf [p.1] + hf [p.2] - hf [p.1, p.2]) =
        (clPairs n).map fun p => ⟨p.1, p.2, hf [p.1] + hf [p.2] - hf [p.1, p.2]⟩ := by
      unfold edges
      induction clPairs n with
      | nil => rfl
      | cons p ps ih => simp only [List.map_cons, List.zip_cons_cons, List.zipWith_cons_cons, ih]
    rw [this, List.mem_map]
    constructor
    · rintro ⟨⟨a, b⟩, hab, rfl⟩
      exact ⟨a, b, ((hmem a b).1 hab).1, ((hmem a b).1 hab).2, rfl⟩
    · rintro ⟨a, b, h1, h2, rfl⟩
      exact ⟨(a, b), (hmem a b).2 ⟨h1, h2⟩, rfl⟩
  obtain ⟨h, L, k1, k2, k3⟩ := C33_single_linkage hn (first := (clPairs n).map Prod.fst)
    (second := (clPairs n).map Prod.snd) (by simp) (by simp) (by
      intro l hl
      obtain ⟨a, b, h1, h2, rfl⟩ := (hE l).1 hl
      exact ⟨h1, by show b < n; omega⟩) hidx gam
  refine ⟨h, L, k1, k2, k3.congr fun u v => ?_⟩
  refine eqvGen_congr ?_ ?_ u v
  · rintro x y ⟨l, hl, rfl, rfl, hw⟩
    obtain ⟨a, b, h1, h2, rfl⟩ := (hE l).1 hl
    exact EqvGen.rel _ _ ⟨h1, h2, hw⟩
  · rintro x y ⟨h1, h2, hw⟩
    exact EqvGen.rel _ _ ⟨_, (hE _).2 ⟨x, y, h1, h2, rfl⟩, rfl, rfl, hw⟩

example : CL.ofEntropy (fun B => if B.length = 1 then 1 else if 0 ∈ B then 1 else 2) 3 [0, 1, 2]
    >>= (fun h => h.getPartition ((0 : ℚ) : WithBot ℚ)) = .ok [[0, 1, 2]] := by decide +kernel

end PSP.Props
