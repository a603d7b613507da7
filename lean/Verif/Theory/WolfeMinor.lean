import Verif.Theory.Wolfe

/-!
# `min_norm_base`: the minor cycles

The weight of a newly added column is whatever earlier cycles left in `w`, not 0 (`w0 ++ [s]` below
against the intended `w0 ++ [s0]`).  It never limits the step and the new column is never deleted, so
this does no harm.
-/

namespace PSP.Theory

open PSP.Model PSP.Spec

theorem theta_spec (eps : ℚ) (w v : List ℚ) : theta eps w v ≤ 1 ∧
    (∀ p ∈ List.zip w v, p.1 - p.2 ≥ eps → theta eps w v ≤ p.1 / (p.1 - p.2)) ∧
    (theta eps w v = 1 ∨ ∃ p ∈ List.zip w v, p.1 - p.2 ≥ eps ∧ theta eps w v = p.1 / (p.1 - p.2)) := by
  unfold theta
  generalize List.zip w v = l
  have key : ∀ (l : List (ℚ × ℚ)) (t0 : ℚ),
      (l.foldl (fun t p => if p.1 - p.2 ≥ eps then min t (p.1 / (p.1 - p.2)) else t) t0) ≤ t0 ∧
      (∀ p ∈ l, p.1 - p.2 ≥ eps →
        (l.foldl (fun t p => if p.1 - p.2 ≥ eps then min t (p.1 / (p.1 - p.2)) else t) t0) ≤
          p.1 / (p.1 - p.2)) ∧
      ((l.foldl (fun t p => if p.1 - p.2 ≥ eps then min t (p.1 / (p.1 - p.2)) else t) t0) = t0 ∨
        ∃ p ∈ l, p.1 - p.2 ≥ eps ∧
        (l.foldl (fun t p => if p.1 - p.2 ≥ eps then min t (p.1 / (p.1 - p.2)) else t) t0) =
          p.1 / (p.1 - p.2)) := by
    intro l
    induction l with
    | nil => intro t0; simp
    | cons a l ih =>
      intro t0
      rw [List.foldl_cons]
      by_cases ha : a.1 - a.2 ≥ eps
      · rw [if_pos ha]
        obtain ⟨h1, h2, h3⟩ := ih (min t0 (a.1 / (a.1 - a.2)))
        refine ⟨h1.trans (min_le_left _ _), ?_, ?_⟩
        · intro p hp hpe
          rcases List.mem_cons.1 hp with rfl | hp
          · exact h1.trans (min_le_right _ _)
          · exact h2 p hp hpe
        · rcases h3 with h3 | ⟨p, hp, h3⟩
          · rcases min_choice t0 (a.1 / (a.1 - a.2)) with h | h
            · left; rw [h3, h]
            · right; exact ⟨a, by simp, ha, by rw [h3, h]⟩
          · right; exact ⟨p, by simp [hp], h3⟩
      · rw [if_neg ha]
        obtain ⟨h1, h2, h3⟩ := ih t0
        refine ⟨h1, ?_, ?_⟩
        · intro p hp hpe
          rcases List.mem_cons.1 hp with rfl | hp
          · exact absurd hpe ha
          · exact h2 p hp hpe
        · rcases h3 with h3 | ⟨p, hp, h3⟩
          · exact Or.inl h3
          · right; exact ⟨p, by simp [hp], h3⟩
  exact key l 1

/-- The weights after a step of length `t`. -/
def mix (t : ℚ) (w v : List ℚ) : List ℚ := List.zipWith (fun a b => (1 - t) * a + t * b) w v

/-- The possible step lengths. -/
def thetas (w v : List ℚ) : Finset ℚ :=
  insert 1 ((List.zip w v).map fun p => p.1 / (p.1 - p.2)).toFinset

/-- Corral and weights after a step, with exact comparisons. -/
def nextState (Q : List (List ℚ)) (w v : List ℚ) (t : ℚ) : List (List ℚ) × List ℚ :=
  (((List.zip Q (mix t w v)).filter fun p => 0 < p.2).map Prod.fst,
   ((List.zip Q (mix t w v)).filter fun p => 0 < p.2).map Prod.snd)

/-- The states that minor cycles can reach. -/
def reach (vOf : List (List ℚ) → List ℚ) (R : Finset (List (List ℚ) × List ℚ)) :
    ℕ → Finset (List (List ℚ) × List ℚ)
  | 0 => R
  | m + 1 => reach vOf R m ∪ (reach vOf R m).biUnion fun p =>
      (thetas p.2 (vOf p.1)).image (nextState p.1 p.2 (vOf p.1))

theorem reach_mono (vOf : List (List ℚ) → List ℚ) (R : Finset (List (List ℚ) × List ℚ))
    {a b : ℕ} (hab : a ≤ b) : reach vOf R a ⊆ reach vOf R b := by
  induction hab with
  | refl => exact fun _ h => h
  | step _ ih => exact fun p hp => Finset.mem_union_left _ (ih hp)

/-- `eps` is below every positive number that the comparisons of the minor cycles see. -/
def SmallEps (vOf : List (List ℚ) → List ℚ) (S : Finset (List (List ℚ) × List ℚ)) (eps : ℚ) : Prop :=
  ∀ p ∈ S, (∀ a ∈ vOf p.1, 0 < a → eps < a) ∧
    (∀ z ∈ List.zip p.2 (vOf p.1), z.2 < z.1 → eps ≤ z.1 - z.2) ∧
    ∀ t ∈ thetas p.2 (vOf p.1), ∀ a ∈ mix t p.2 (vOf p.1), 0 < a → eps < a

theorem exists_below (T : Finset ℚ) : ∃ e : ℚ, 0 < e ∧ ∀ a ∈ T, 0 < a → e < a := by
  induction T using Finset.induction_on with
  | empty => exact ⟨1, by norm_num, by simp⟩
  | insert b T _ ih =>
    obtain ⟨e, he, h⟩ := ih
    by_cases hb : 0 < b
    · refine ⟨min e (b / 2), lt_min he (by linarith), ?_⟩
      intro a ha ha0
      rcases Finset.mem_insert.1 ha with rfl | ha
      · exact (min_le_right _ _).trans_lt (by linarith)
      · exact (min_le_left _ _).trans_lt (h a ha ha0)
    · refine ⟨e, he, ?_⟩
      intro a ha ha0
      rcases Finset.mem_insert.1 ha with rfl | ha
      · exact absurd ha0 hb
      · exact h a ha ha0

theorem exists_smallEps (vOf : List (List ℚ) → List ℚ) (S : Finset (List (List ℚ) × List ℚ)) :
    ∃ e : ℚ, 0 < e ∧ ∀ eps, eps ≤ e → SmallEps vOf S eps := by
  obtain ⟨e, he, h⟩ := exists_below (S.biUnion fun p => (vOf p.1).toFinset ∪
    ((List.zip p.2 (vOf p.1)).map fun z => z.1 - z.2).toFinset ∪
    (thetas p.2 (vOf p.1)).biUnion fun t => (mix t p.2 (vOf p.1)).toFinset)
  refine ⟨e, he, fun eps hle p hp => ⟨?_, ?_, ?_⟩⟩
  · intro a ha ha0
    refine hle.trans_lt (h a ?_ ha0)
    rw [Finset.mem_biUnion]
    exact ⟨p, hp, by simp [ha]⟩
  · intro z hz hlt
    refine hle.trans (h (z.1 - z.2) ?_ (by linarith)).le
    rw [Finset.mem_biUnion]
    refine ⟨p, hp, Finset.mem_union_left _ (Finset.mem_union_right _ ?_)⟩
    rw [List.mem_toFinset, List.mem_map]
    exact ⟨z, hz, rfl⟩
  · intro t ht a ha ha0
    refine hle.trans_lt (h a ?_ ha0)
    rw [Finset.mem_biUnion]
    refine ⟨p, hp, Finset.mem_union_right _ ?_⟩
    rw [Finset.mem_biUnion]
    exact ⟨t, ht, by simp [ha]⟩

theorem mem_mix {t : ℚ} {w v : List ℚ} {a : ℚ} :
    a ∈ mix t w v ↔ ∃ p ∈ List.zip w v, a = (1 - t) * p.1 + t * p.2 := by
  unfold mix
  rw [← List.map_uncurry_zip_eq_zipWith, List.mem_map]
  constructor
  · rintro ⟨p, hp, rfl⟩; exact ⟨p, hp, rfl⟩
  · rintro ⟨p, hp, rfl⟩; exact ⟨p, hp, rfl⟩

theorem exists_zip {α β : Type} : ∀ {w : List α} {v : List β}, w.length = v.length → ∀ {b : β},
    b ∈ v → ∃ a ∈ w, (a, b) ∈ List.zip w v := by
  intro w
  induction w with
  | nil => intro v h b hb; cases v with
    | nil => simp at hb
    | cons => simp at h
  | cons a w ih => intro v h b hb; cases v with
    | nil => simp at hb
    | cons c v =>
      rcases List.mem_cons.1 hb with rfl | hb
      · exact ⟨a, by simp, by simp⟩
      · obtain ⟨a', h1, h2⟩ := ih (by simpa using h) hb
        exact ⟨a', by simp [h1], by simp [h2]⟩

/-- What holds at the start of a minor cycle: `x` is the point before the major cycle, the corral is
`Q0 ++ [q]` with `q` new. -/
structure MInv (n : ℕ) (x : List ℚ) (Q0 : List (List ℚ)) (q w0 : List ℚ) (s0 s : ℚ)
    (rest : List ℚ) : Prop where
  xlen : x.length = n
  len : ∀ p ∈ Q0 ++ [q], p.length = n
  orth : ∀ p ∈ Q0, dot x p = dot x x
  gap : dot x q < dot x x
  wlen : w0.length = Q0.length
  wpos : ∀ a ∈ w0, 0 < a
  old : 0 ≤ s0
  stale : s0 ≤ s
  sum : w0.sum + s0 = 1
  left : ∀ a ∈ rest, 0 ≤ a
  near : (∀ p : List ℚ, p.length = n → dot (combine n (Q0 ++ [q]) (w0 ++ [s0])) p = dot x p) ∨
    dot (combine n (Q0 ++ [q]) (w0 ++ [s0])) (combine n (Q0 ++ [q]) (w0 ++ [s0])) < dot x x

theorem split_last {α : Type} {v : List α} {k : ℕ} (h : v.length = k + 1) :
    ∃ v0 a, v = v0 ++ [a] ∧ v0.length = k := by
  rcases List.eq_nil_or_concat v with rfl | ⟨v0, a, rfl⟩
  · simp at h
  · exact ⟨v0, a, by simp, by simpa using h⟩

variable {N : Numerics} {n : ℕ} {eps : ℚ}

/-- One pass of the minor cycles. -/
theorem minorStep_spec (hN : ∀ Q : List (List ℚ), Q ≠ [] → (∀ q ∈ Q, q.length = n) →
      Solves n Q (N.solve Q)) (heps : 0 < eps) {x : List ℚ}
    {R : Finset (List (List ℚ) × List ℚ)} {K : ℕ}
    (hsmall : SmallEps (fun Q => normalised (N.solve Q))
      (reach (fun Q => normalised (N.solve Q)) R K) eps)
    {m : ℕ} {Q0 : List (List ℚ)} {q w0 : List ℚ} {s0 s : ℚ} {rest : List ℚ}
    (hI : MInv n x Q0 q w0 s0 s rest)
    (hreach : (Q0 ++ [q], w0 ++ [s0]) ∈ reach (fun Q => normalised (N.solve Q)) R m)
    (hm : m + Q0.length ≤ K) :
    (N.solve (Q0 ++ [q])).sum ≠ 0 ∧
    dot (combine n (Q0 ++ [q]) (normalised (N.solve (Q0 ++ [q]))))
      (combine n (Q0 ++ [q]) (normalised (N.solve (Q0 ++ [q])))) < dot x x ∧
    ((∃ a ∈ normalised (N.solve (Q0 ++ [q])), a ≤ eps) →
      ∃ (t : ℚ) (w1 m0 : List ℚ) (keep0 : List (List ℚ × ℚ)) (s1 s1' : ℚ),
      t = theta eps (w0 ++ [s]) (normalised (N.solve (Q0 ++ [q]))) ∧ t ≤ 1 ∧
      w1 = mix t (w0 ++ [s]) (normalised (N.solve (Q0 ++ [q]))) ∧ w1 = m0 ++ [s1'] ∧
      m0.length = Q0.length ∧ eps < s1' ∧ keep0 = (List.zip Q0 m0).filter (fun p => ¬ p.2 ≤ eps) ∧
      (List.zip (Q0 ++ [q]) w1).filter (fun p => ¬ p.2 ≤ eps) = keep0 ++ [(q, s1')] ∧
      (keep0.map Prod.fst).Sublist Q0 ∧ keep0.length < Q0.length ∧
      (∀ p : List ℚ, p.length = n →
        dot (combine n (keep0.map Prod.fst ++ [q]) (keep0.map Prod.snd ++ [s1])) p =
          (1 - t) * dot (combine n (Q0 ++ [q]) (w0 ++ [s0])) p +
            t * dot (combine n (Q0 ++ [q]) (normalised (N.solve (Q0 ++ [q])))) p) ∧
      MInv n x (keep0.map Prod.fst) q (keep0.map Prod.snd) s1 s1'
        (w1.drop (keep0.map Prod.snd ++ [s1']).length ++ rest) ∧
      (keep0.map Prod.fst ++ [q], keep0.map Prod.snd ++ [s1]) ∈
        reach (fun Q => normalised (N.solve Q)) R (m + 1)) := by
  have hQne : Q0 ++ [q] ≠ [] := by simp
  have hsol := hN _ hQne hI.len
  have hsum := hsol.sum_ne hQne hI.len
  have hproj := hsol.proj hQne hI.len
  obtain ⟨h1, h2, h3⟩ := hsmall _ (reach_mono _ _ (by omega : m ≤ K) hreach)
  simp only at h1 h2 h3
  set v := normalised (N.solve (Q0 ++ [q])) with hv
  have hvl : v.length = Q0.length + 1 := by rw [hproj.length]; simp
  obtain ⟨v0, vn, hv0, hv0l⟩ := split_last hvl
  set z := combine n (Q0 ++ [q]) (w0 ++ [s0]) with hz
  set y := combine n (Q0 ++ [q]) v with hy
  have hzl : z.length = n := combine_length _ _ _
  have hyl : y.length = n := combine_length _ _ _
  have hwsl : (w0 ++ [s0]).length = (Q0 ++ [q]).length := by simp [hI.wlen]
  have hwss : (w0 ++ [s0]).sum = 1 := by simp [hI.sum]
  have hzy : dot z y = dot y y := hproj.dot_eq hI.len hwsl hwss
  have hyz : dot y y ≤ dot z z := hproj.le hI.len hwsl hwss
  have hzx : dot z z ≤ dot x x := by
    rcases hI.near with h | h
    · rw [h z hzl, dot_comm, h x hI.xlen]
    · exact h.le
  -- the coefficient of the new column
  have hxy : dot x y = dot x x - vn * (dot x x - dot x q) := by
    rw [dot_comm, hy, dot_combine _ _ _ hI.len hI.xlen, hv0,
      cmb_append (by rw [hv0l]), cmb_const Q0 v0 (by rw [hv0l]) (c := dot x x)
        (fun p hp => by rw [dot_comm]; exact hI.orth p hp), cmb_cons, cmb_nil_left]
    have hs := hproj.sum
    rw [hv0] at hs
    simp only [List.sum_append, List.sum_cons, List.sum_nil] at hs
    have : v0.sum = 1 - vn := by linarith
    rw [this, dot_comm q x]; ring
  have hvn : 0 < vn := by
    by_contra hle
    rw [not_lt] at hle
    have hg := hI.gap
    have hge : dot x x ≤ dot x y := by
      rw [hxy]; nlinarith
    have h0 := dot_sub_zero hI.xlen hyl (by linarith) (hI.len q (by simp))
    have h0' := dot_sub_zero hI.xlen hyl (by linarith) hI.xlen
    have e1 := hproj.orth q (by simp)
    rw [← hy] at e1
    have e2 : dot x y = dot y x := dot_comm _ _
    have h0'' := dot_sub_zero hI.xlen hyl (by linarith) hyl
    rw [e1] at h0
    linarith
  have hstrict : dot y y < dot x x := by
    rcases hI.near with h | h
    · rw [← hzy, h y hyl, hxy]
      have := hI.gap
      nlinarith
    · exact hyz.trans_lt h
  refine ⟨hsum, hstrict, fun hall => ?_⟩
  set t := theta eps (w0 ++ [s]) v with ht
  obtain ⟨ht1, ht2, ht3⟩ := theta_spec eps (w0 ++ [s]) v
  rw [← ht] at ht1 ht2 ht3
  have hlen0 : w0.length = v0.length := by rw [hI.wlen, hv0l]
  have hzip : ∀ a : ℚ, List.zip (w0 ++ [a]) v = List.zip w0 v0 ++ [(a, vn)] := by
    intro a
    rw [hv0, List.zip_append hlen0]
    simp
  have hmix : ∀ a : ℚ, mix t (w0 ++ [a]) v = mix t w0 v0 ++ [(1 - t) * a + t * vn] := by
    intro a
    unfold mix
    rw [hv0, List.zipWith_append hlen0]
    simp
  have hw0pos : ∀ p ∈ List.zip w0 v0, 0 < p.1 := fun p hp => hI.wpos _ (List.of_mem_zip hp).1
  have hdiff : ∀ p ∈ List.zip w0 v0, p.2 < p.1 → eps ≤ p.1 - p.2 := fun p hp hlt =>
    h2 p (by rw [hzip]; exact List.mem_append_left _ hp) hlt
  -- the step length comes from an old column
  have ht4 : t = 1 ∨ ∃ p ∈ List.zip w0 v0, eps ≤ p.1 - p.2 ∧ t = p.1 / (p.1 - p.2) := by
    rcases ht3 with h | ⟨p, hp, hpe, h⟩
    · exact Or.inl h
    · rw [hzip] at hp
      rcases List.mem_append.1 hp with hp | hp
      · exact Or.inr ⟨p, hp, hpe, h⟩
      · rw [List.mem_singleton] at hp
        subst hp
        simp only at h hpe
        have hpos : 0 < s - vn := by linarith
        rw [h, div_le_iff₀ hpos] at ht1
        linarith
  have htpos : 0 < t := by
    rcases ht4 with h | ⟨p, hp, hpe, h⟩
    · rw [h]; norm_num
    · rw [h]; exact div_pos (hw0pos p hp) (by linarith)
  have htmem : t ∈ thetas (w0 ++ [s0]) v := by
    unfold thetas
    rw [Finset.mem_insert]
    rcases ht4 with h | ⟨p, hp, hpe, h⟩
    · exact Or.inl h
    · right
      rw [List.mem_toFinset, List.mem_map]
      exact ⟨p, by rw [hzip]; exact List.mem_append_left _ hp, h.symm⟩
  have hmixnn : ∀ a ∈ mix t w0 v0, 0 ≤ a := by
    intro a ha
    obtain ⟨p, hp, rfl⟩ := mem_mix.1 ha
    have hp0 := hw0pos p hp
    by_cases hlt : p.2 < p.1
    · have := ht2 p (by rw [hzip]; exact List.mem_append_left _ hp) (hdiff p hp hlt)
      rw [le_div_iff₀ (by linarith)] at this
      nlinarith
    · rw [not_lt] at hlt
      nlinarith
  have hmix0 : (0 : ℚ) ∈ mix t w0 v0 := by
    rw [mem_mix]
    rcases ht4 with h | ⟨p, hp, hpe, h⟩
    · obtain ⟨b, hb, hbe⟩ := hall
      have hb0 : b ≤ 0 := by
        by_contra hcon
        rw [not_le] at hcon
        exact absurd (h1 b hb hcon) (not_lt.2 hbe)
      have hbv0 : b ∈ v0 := by
        rw [hv0] at hb
        rcases List.mem_append.1 hb with hb | hb
        · exact hb
        · rw [List.mem_singleton] at hb; linarith
      obtain ⟨a, ha, hab⟩ := exists_zip hlen0 hbv0
      have ha0 := hI.wpos a ha
      have := ht2 (a, b) (by rw [hzip]; exact List.mem_append_left _ hab)
        (hdiff (a, b) hab (by simp only; linarith))
      simp only at this
      rw [h, le_div_iff₀ (by linarith)] at this
      have : b = 0 := by linarith
      exact ⟨(a, b), hab, by rw [h]; simp only; linarith⟩
    · refine ⟨p, hp, ?_⟩
      have hne : p.1 - p.2 ≠ 0 := by linarith
      have : t * (p.1 - p.2) = p.1 := by rw [h, div_mul_cancel₀ _ hne]
      linarith
  -- the new weights
  have hsnew : 0 < (1 - t) * s0 + t * vn := by
    have := hI.old
    nlinarith [mul_pos htpos hvn]
  have hsle : (1 - t) * s0 + t * vn ≤ (1 - t) * s + t * vn := by
    have := hI.stale
    nlinarith
  have hepsnew : eps < (1 - t) * s0 + t * vn := h3 t htmem _ (by rw [hmix]; simp) hsnew
  have hmixeps : ∀ a ∈ mix t w0 v0, (0 < a ↔ ¬ a ≤ eps) := by
    intro a ha
    rw [not_le]
    exact ⟨h3 t htmem a (by rw [hmix]; exact List.mem_append_left _ ha), fun h => heps.trans h⟩
  have hml : Q0.length = (mix t w0 v0).length := by
    unfold mix
    rw [List.length_zipWith, hI.wlen, hv0l]; simp
  set keep0 := (List.zip Q0 (mix t w0 v0)).filter fun p => decide (0 < p.2) with hkeep0
  have hkeep : (List.zip (Q0 ++ [q]) (mix t (w0 ++ [s]) v)).filter (fun p => ¬ p.2 ≤ eps) =
      keep0 ++ [(q, (1 - t) * s + t * vn)] := by
    rw [hmix, List.zip_append hml, List.filter_append]
    congr 1
    · apply List.filter_congr
      intro p hp
      have := hmixeps p.2 (List.of_mem_zip hp).2
      simp only [decide_eq_decide]
      exact this.symm
    · have : eps < (1 - t) * s + t * vn := hepsnew.trans_le hsle
      simp [this]
  have hkeepS : (List.zip (Q0 ++ [q]) (mix t (w0 ++ [s0]) v)).filter (fun p => decide (0 < p.2)) =
      keep0 ++ [(q, (1 - t) * s0 + t * vn)] := by
    rw [hmix, List.zip_append hml, List.filter_append]
    congr 1
    simp [hsnew]
  have hsubl : (keep0.map Prod.fst).Sublist Q0 := by
    have : ((List.zip Q0 (mix t w0 v0)).map Prod.fst) = Q0 :=
      List.map_fst_zip (by omega)
    conv_rhs => rw [← this]
    exact List.filter_sublist.map _
  have hlt : keep0.length < Q0.length := by
    have h0 : keep0.length < (List.zip Q0 (mix t w0 v0)).length := by
      rw [hkeep0, List.length_filter_lt_length_iff_exists]
      obtain ⟨a, -, ha⟩ := exists_zip hml hmix0
      exact ⟨(a, 0), ha, by simp⟩
    rw [List.length_zip, ← hml] at h0
    omega
  -- the point after the step
  set z1 := combine n (keep0.map Prod.fst ++ [q]) (keep0.map Prod.snd ++ [(1 - t) * s0 + t * vn])
    with hz1
  have hlen1 : ∀ p ∈ keep0.map Prod.fst ++ [q], p.length = n := by
    intro p hp
    apply hI.len
    rcases List.mem_append.1 hp with hp | hp
    · exact List.mem_append_left _ (hsubl.subset hp)
    · exact List.mem_append_right _ hp
  have hfz : ∀ p ∈ List.zip (Q0 ++ [q]) (mix t (w0 ++ [s0]) v), decide (0 < p.2) = false →
      p.2 = 0 := by
    intro p hp hp0
    rw [decide_eq_false_iff_not, not_lt] at hp0
    refine le_antisymm hp0 ?_
    have hm2 := (List.of_mem_zip hp).2
    rw [hmix] at hm2
    rcases List.mem_append.1 hm2 with h | h
    · exact hmixnn _ h
    · rw [List.mem_singleton] at h; rw [h]; exact hsnew.le
  have hz1d : ∀ p : List ℚ, p.length = n → dot z1 p = (1 - t) * dot z p + t * dot y p := by
    intro p hp
    have e1 := cmb_filter p (fun p => decide (0 < p.2)) (Q0 ++ [q]) (mix t (w0 ++ [s0]) v) hfz
    rw [hkeepS] at e1
    simp only [List.map_append, List.map_cons, List.map_nil] at e1
    rw [hz1, dot_combine _ _ _ hlen1 hp, e1, hz, hy, dot_combine _ _ _ hI.len hp,
      dot_combine _ _ _ hI.len hp]
    exact cmb_mix p t _ _ _ hwsl.symm hproj.length.symm
  have hz1l : z1.length = n := combine_length _ _ _
  have hz1z : dot z1 z1 = dot z z - t * (2 - t) * (dot z z - dot y y) := by
    rw [hz1d z1 hz1l, dot_comm z z1, dot_comm y z1, hz1d z hzl, hz1d y hyl, dot_comm y z, hzy]
    ring
  have hnear : dot z1 z1 < dot x x := by
    rw [hz1z]
    have h2t : 0 < t * (2 - t) := mul_pos htpos (by linarith)
    rcases hI.near with h | h
    · have : dot z z = dot x x := by rw [h z hzl, dot_comm, h x hI.xlen]
      rw [this]
      have : 0 < t * (2 - t) * (dot x x - dot y y) := mul_pos h2t (by linarith)
      linarith
    · have : 0 ≤ t * (2 - t) * (dot z z - dot y y) := mul_nonneg h2t.le (by linarith)
      linarith
  have hsum1 : (keep0.map Prod.snd).sum + ((1 - t) * s0 + t * vn) = 1 := by
    have hmlen : (Q0 ++ [q]).length = (mix t (w0 ++ [s0]) v).length := by
      rw [hmix]; simp [hml]
    have e1 := sum_filter (fun p => decide (0 < p.2)) (Q0 ++ [q]) (mix t (w0 ++ [s0]) v) hmlen hfz
    rw [hkeepS] at e1
    simp only [List.map_append, List.map_cons, List.map_nil, List.sum_append, List.sum_cons,
      List.sum_nil, add_zero] at e1
    rw [e1]
    unfold mix
    rw [sum_mix t _ _ (by rw [hwsl, hproj.length]), hwss, hproj.sum]
    ring
  have hI' : MInv n x (keep0.map Prod.fst) q (keep0.map Prod.snd) ((1 - t) * s0 + t * vn)
      ((1 - t) * s + t * vn) ((mix t (w0 ++ [s]) v).drop (keep0.map Prod.snd ++
        [(1 - t) * s + t * vn]).length ++ rest) := by
    refine ⟨hI.xlen, hlen1, fun p hp => hI.orth p (hsubl.subset hp), hI.gap, by simp, ?_, hsnew.le,
      hsle, hsum1, ?_, Or.inr hnear⟩
    · intro a ha
      obtain ⟨p, hp, rfl⟩ := List.mem_map.1 ha
      have := (List.mem_filter.1 hp).2
      simpa using this
    · intro a ha
      rcases List.mem_append.1 ha with ha | ha
      · have := List.mem_of_mem_drop ha
        rw [hmix] at this
        rcases List.mem_append.1 this with h | h
        · exact hmixnn a h
        · rw [List.mem_singleton] at h; rw [h]; linarith
      · exact hI.left a ha
  refine ⟨t, mix t (w0 ++ [s]) v, mix t w0 v0, keep0, (1 - t) * s0 + t * vn, (1 - t) * s + t * vn, rfl, ht1, rfl,
    hmix s, hml.symm, hepsnew.trans_le hsle, ?_, hkeep, hsubl, hlt, hz1d, hI', ?_⟩
  · rw [hkeep0]
    apply List.filter_congr
    intro p hp
    simp only [decide_eq_decide]
    exact hmixeps p.2 (List.of_mem_zip hp).2
  · rw [reach]
    refine Finset.mem_union_right _ (Finset.mem_biUnion.2 ⟨_, hreach, ?_⟩)
    refine Finset.mem_image.2 ⟨t, htmem, ?_⟩
    simp only [nextState]
    change (((List.zip (Q0 ++ [q]) (mix t (w0 ++ [s0]) v)).filter fun p => decide (0 < p.2)).map
        Prod.fst, ((List.zip (Q0 ++ [q]) (mix t (w0 ++ [s0]) v)).filter
        fun p => decide (0 < p.2)).map Prod.snd) = _
    rw [hkeepS]; simp

theorem minorCycles_spec (hN : ∀ Q : List (List ℚ), Q ≠ [] → (∀ q ∈ Q, q.length = n) →
      Solves n Q (N.solve Q)) (heps : 0 < eps) {x : List ℚ}
    {R : Finset (List (List ℚ) × List ℚ)} {K : ℕ}
    (hsmall : SmallEps (fun Q => normalised (N.solve Q))
      (reach (fun Q => normalised (N.solve Q)) R K) eps) :
    ∀ (fuel m : ℕ) (Q0 : List (List ℚ)) (q w0 : List ℚ) (s0 s : ℚ) (rest : List ℚ),
      MInv n x Q0 q w0 s0 s rest → Indep n (Q0 ++ [q]) →
      (Q0 ++ [q], w0 ++ [s0]) ∈ reach (fun Q => normalised (N.solve Q)) R m →
      m + Q0.length ≤ K → Q0.length + 1 ≤ fuel →
      ∃ Q' rest', minorCycles N n eps fuel (Q0 ++ [q]) (w0 ++ [s] ++ rest) =
          .ok (Q', normalised (N.solve Q') ++ rest', combine n Q' (normalised (N.solve Q'))) ∧
        Q'.Sublist (Q0 ++ [q]) ∧ Q' ≠ [] ∧ (∀ a ∈ normalised (N.solve Q'), eps < a) ∧
        (∀ a ∈ rest', 0 ≤ a) ∧ Q'.length + rest'.length = Q0.length + 1 + rest.length ∧
        dot (combine n Q' (normalised (N.solve Q'))) (combine n Q' (normalised (N.solve Q'))) <
          dot x x := by
  intro fuel
  induction fuel with
  | zero => intro m Q0 q w0 s0 s rest _ _ _ _ hf; omega
  | succ fuel ih =>
    intro m Q0 q w0 s0 s rest hI hind hreach hm hf
    have hQne : Q0 ++ [q] ≠ [] := by simp
    obtain ⟨hsum, hstrict, hstep⟩ := minorStep_spec hN heps hsmall hI hreach hm
    set v := normalised (N.solve (Q0 ++ [q])) with hv
    have hwl : (w0 ++ [s]).length = (Q0 ++ [q]).length := by simp [hI.wlen]
    have htake : (w0 ++ [s] ++ rest).take (Q0 ++ [q]).length = w0 ++ [s] := by
      rw [← hwl, List.take_left]
    have hdrop : (w0 ++ [s] ++ rest).drop (Q0 ++ [q]).length = rest := by
      rw [← hwl, List.drop_left]
    unfold minorCycles
    simp only []
    rw [if_neg (fun hc => hsum hc.2), htake, hdrop]
    change ∃ Q' rest', (if ¬ ∃ a ∈ v, a ≤ eps then _ else _) = _ ∧ _
    by_cases hall : ∃ a ∈ v, a ≤ eps
    swap
    · rw [if_pos hall]
      push Not at hall
      refine ⟨Q0 ++ [q], rest, rfl, List.Sublist.refl _, hQne, hall, hI.left, by simp, hstrict⟩
    rw [if_neg (not_not.2 hall)]
    obtain ⟨t, w1, m0, keep0, s1, s1', ht, ht1, hw1, hw1m, hm0, -, -, hkeep, hsubl, hlt, -, hI', hreach'⟩ := hstep hall
    have hw1l : w1.length = Q0.length + 1 := by rw [hw1m]; simp [hm0]
    change ∃ Q' rest', (if n < (Q0 ++ [q]).length ∧ ∃ a ∈ (mix (theta eps (w0 ++ [s]) v) (w0 ++ [s]) v).dropLast, a ≤ eps
      then Outcome.ub "block outside of L" else
      minorCycles N n eps fuel
        (((List.zip (Q0 ++ [q]) (mix (theta eps (w0 ++ [s]) v) (w0 ++ [s]) v)).filter
          (fun p => ¬ p.2 ≤ eps)).map Prod.fst)
        ((((List.zip (Q0 ++ [q]) (mix (theta eps (w0 ++ [s]) v) (w0 ++ [s]) v)).filter
          (fun p => ¬ p.2 ≤ eps)).map Prod.snd) ++
          (mix (theta eps (w0 ++ [s]) v) (w0 ++ [s]) v).drop
            (((List.zip (Q0 ++ [q]) (mix (theta eps (w0 ++ [s]) v) (w0 ++ [s]) v)).filter
              (fun p => ¬ p.2 ≤ eps)).map Prod.snd).length ++ rest)) = _ ∧ _
    rw [if_neg (fun hc => absurd hind.length_le (by omega)), ← ht, ← hw1, hkeep]
    simp only [List.map_append, List.map_cons, List.map_nil]
    have hsubl1 : (keep0.map Prod.fst ++ [q]).Sublist (Q0 ++ [q]) :=
      hsubl.append (List.Sublist.refl _)
    obtain ⟨Q', rest', k1, k2, k3, k4, k5, k6, k7⟩ := ih (m + 1) _ q _ _ _ _ hI'
      (hind.sublist hsubl1) hreach' (by rw [List.length_map]; omega) (by rw [List.length_map]; omega)
    refine ⟨Q', rest', ?_, k2.trans hsubl1, k3, k4, k5, ?_, k7⟩
    · rw [← k1]
      congr 1
      simp only [List.append_assoc]
    · rw [k6, List.length_append, List.length_drop]
      simp only [List.length_append, List.length_map, List.length_cons, List.length_nil, hw1l]
      omega

end PSP.Theory
