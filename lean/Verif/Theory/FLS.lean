import Mathlib.Data.List.GetD
import Verif.Model.FLS
import Verif.Spec.FLS
import Verif.Theory.WolfeAgg

/-!
# The rank by elimination is the dimension; entropy of finite linear sources
-/

namespace PSP.Theory

open PSP.Model PSP.Spec

variable {F : Type} [Field F] [DecidableEq F]

/-- A row as a vector. -/
def vec (c : ℕ) (r : List F) : Fin c → F := fun k => r.getD k 0

/-- The space spanned by the rows. -/
def rowsSpan (c : ℕ) (rows : List (List F)) : Submodule F (Fin c → F) :=
  Submodule.span F {v | ∃ r ∈ rows, v = vec c r}

/-- Put a zero in front. -/
def consZero (c : ℕ) : (Fin c → F) →ₗ[F] (Fin (c + 1) → F) where
  toFun v := Fin.cons 0 v
  map_add' u v := by
    funext k
    refine Fin.cases ?_ (fun k => ?_) k <;> simp
  map_smul' a v := by
    funext k
    refine Fin.cases ?_ (fun k => ?_) k <;> simp

theorem consZero_injective (c : ℕ) : Function.Injective (consZero (F := F) c) := by
  intro u v h
  funext k
  have := congrFun h k.succ
  simpa [consZero] using this

theorem vec_tail {c : ℕ} {r : List F} (h : r.headD 0 = 0) : vec (c + 1) r = consZero c (vec c r.tail) := by
  funext k
  refine Fin.cases ?_ (fun k => ?_) k
  · cases r with
    | nil => simp [vec, consZero]
    | cons a r => simpa [vec, consZero] using h
  · cases r with
    | nil => simp [vec, consZero]
    | cons a r => simp [vec, consZero]

/-- If the first column is zero it can be left out. -/
theorem finrank_tail {c : ℕ} {rows : List (List F)} (h : ∀ r ∈ rows, r.headD 0 = 0) :
    Module.finrank F (rowsSpan (c + 1) rows) = Module.finrank F (rowsSpan c (rows.map List.tail)) := by
  have : rowsSpan (c + 1) rows = (rowsSpan c (rows.map List.tail)).map (consZero c) := by
    unfold rowsSpan
    rw [Submodule.map_span]
    congr 1
    ext v
    simp only [Set.mem_ofPred_eq, Set.mem_image, List.mem_map]
    constructor
    · rintro ⟨r, hr, rfl⟩
      exact ⟨_, ⟨_, ⟨r, hr, rfl⟩, rfl⟩, (vec_tail (h r hr)).symm⟩
    · rintro ⟨_, ⟨_, ⟨r, hr, rfl⟩, rfl⟩, rfl⟩
      exact ⟨r, hr, (vec_tail (h r hr)).symm⟩
  rw [this]
  exact (LinearEquiv.finrank_eq (Submodule.equivMapOfInjective _ (consZero_injective c) _)).symm

theorem vec_elimRow {c : ℕ} {p r : List F} (hp : p.length = c) (hr : r.length = c) :
    vec c (elimRow p r) = p.headD 0 • vec c r - r.headD 0 • vec c p := by
  funext k
  have h1 : (k : ℕ) < p.length := by rw [hp]; exact k.2
  have h2 : (k : ℕ) < r.length := by rw [hr]; exact k.2
  simp only [vec, elimRow, Pi.sub_apply, Pi.smul_apply, smul_eq_mul]
  rw [List.getD_eq_getElem _ _ (by simp [h1, h2]), List.getD_eq_getElem _ _ h1,
    List.getD_eq_getElem _ _ h2, List.getElem_zipWith]

theorem elimRow_head (p r : List F) : (elimRow p r).headD 0 = 0 := by
  cases p with
  | nil => simp [elimRow]
  | cons a p =>
    cases r with
    | nil => simp [elimRow]
    | cons b r => simp [elimRow, mul_comm]

/-- One step of the elimination. -/
theorem finrank_elim {c : ℕ} {rows : List (List F)} (hl : ∀ r ∈ rows, r.length = c + 1) {p : List F}
    (hp : p ∈ rows) (hp0 : p.headD 0 ≠ 0) :
    Module.finrank F (rowsSpan (c + 1) rows) =
      1 + Module.finrank F (rowsSpan (c + 1) (rows.map (elimRow p))) := by
  set W := rowsSpan (c + 1) (rows.map (elimRow p)) with hW
  have hsup : rowsSpan (c + 1) rows = Submodule.span F {vec (c + 1) p} ⊔ W := by
    apply le_antisymm
    · apply Submodule.span_le.2
      rintro v ⟨r, hr, rfl⟩
      have h1 := vec_elimRow (hl p hp) (hl r hr)
      have h2 : vec (c + 1) r = (p.headD 0)⁻¹ • (vec (c + 1) (elimRow p r) + r.headD 0 • vec (c + 1) p) := by
        rw [h1, sub_add_cancel, smul_smul, inv_mul_cancel₀ hp0, one_smul]
      rw [SetLike.mem_coe, h2]
      apply Submodule.smul_mem
      apply Submodule.add_mem
      · apply Submodule.mem_sup_right
        exact Submodule.subset_span ⟨_, List.mem_map_of_mem hr, rfl⟩
      · apply Submodule.mem_sup_left
        exact Submodule.smul_mem _ _ (Submodule.mem_span_singleton_self _)
    · apply sup_le
      · rw [Submodule.span_singleton_le_iff_mem]
        exact Submodule.subset_span ⟨p, hp, rfl⟩
      · apply Submodule.span_le.2
        rintro v ⟨_, hr', rfl⟩
        obtain ⟨r, hr, rfl⟩ := List.mem_map.1 hr'
        rw [SetLike.mem_coe, vec_elimRow (hl p hp) (hl r hr)]
        exact Submodule.sub_mem _ (Submodule.smul_mem _ _ (Submodule.subset_span ⟨r, hr, rfl⟩))
          (Submodule.smul_mem _ _ (Submodule.subset_span ⟨p, hp, rfl⟩))
  have hW0 : ∀ v ∈ W, v 0 = 0 := by
    intro v hv
    refine Submodule.span_induction (p := fun v _ => v 0 = 0) ?_ rfl ?_ ?_ hv
    · rintro v ⟨_, hr, rfl⟩
      obtain ⟨r, hr, rfl⟩ := List.mem_map.1 hr
      have := elimRow_head p r
      cases h : elimRow p r with
      | nil => simp [vec]
      | cons a l => rw [h] at this; simpa [vec] using this
    · intro u v _ _ hu hv; simp [hu, hv]
    · intro a v _ hv; simp [hv]
  have hp1 : vec (c + 1) p 0 = p.headD 0 := by
    cases p with
    | nil => simp [vec]
    | cons a l => simp [vec]
  have hpne : vec (c + 1) p ≠ 0 := fun h => hp0 (by rw [← hp1, h]; rfl)
  have hinf : Submodule.span F {vec (c + 1) p} ⊓ W = ⊥ := by
    rw [eq_bot_iff]
    rintro v ⟨h1, h2⟩
    obtain ⟨a, rfl⟩ := Submodule.mem_span_singleton.1 h1
    have := hW0 _ h2
    rw [Pi.smul_apply, hp1, smul_eq_mul] at this
    rcases mul_eq_zero.1 this with h | h
    · rw [h, zero_smul]; exact Submodule.zero_mem _
    · exact absurd h hp0
  have := Submodule.finrank_sup_add_finrank_inf_eq (Submodule.span F {vec (c + 1) p}) W
  rw [hinf, finrank_bot, finrank_span_singleton hpne, ← hsup] at this
  omega

/-- The number of pivots is the dimension of the space spanned by the rows. -/
theorem elimRank_eq : ∀ (c : ℕ) (rows : List (List F)), (∀ r ∈ rows, r.length = c) →
    elimRank c rows = Module.finrank F (rowsSpan c rows) := by
  intro c
  induction c with
  | zero =>
    intro rows _
    rw [elimRank]
    symm
    exact Module.finrank_zero_of_subsingleton
  | succ c ih =>
    intro rows hl
    rw [elimRank]
    cases hf : rows.find? fun r => r.headD 0 ≠ 0 with
    | none =>
      simp only
      rw [finrank_tail, ih]
      · intro r hr'
        obtain ⟨r, hr, rfl⟩ := List.mem_map.1 hr'
        simp [hl r hr]
      · intro r hr
        have := List.find?_eq_none.1 hf r hr
        simpa using this
    | some p =>
      simp only
      have hp := List.mem_of_find?_eq_some hf
      have hp0 : p.headD 0 ≠ 0 := by simpa using List.find?_some hf
      rw [finrank_elim hl hp hp0, finrank_tail, ih]
      · rw [List.map_map]; rfl
      · intro r hr'
        obtain ⟨r, hr, rfl⟩ := List.mem_map.1 hr'
        simp [elimRow, hl r hr, hl p hp]
      · intro r hr'
        obtain ⟨r, hr, rfl⟩ := List.mem_map.1 hr'
        exact elimRow_head p r

theorem finiteLinear_val {unit : ℚ} {cols : ℕ} {M : List (List (List ℤ))}
    (hM : ∀ A ∈ M, ∀ r ∈ A, r.length = cols) (B : List ℕ) :
    (finiteLinear F unit cols M).val B = unit * rowRank F cols M B.toFinset := by
  simp only [finiteLinear, grank]
  have hv : ∀ r : List ℤ, vec cols (r.map fun a : ℤ => (a : F)) = fun k : Fin cols => ((r.getD k 0 : ℤ) : F) := by
    intro r
    funext k
    simp only [vec]
    by_cases hk : (k : ℕ) < r.length
    · rw [List.getD_eq_getElem _ _ (by simpa using hk), List.getD_eq_getElem _ _ hk, List.getElem_map]
    · rw [List.getD_eq_default _ _ (by simpa using hk), List.getD_eq_default _ _ (by omega), Int.cast_zero]
  have hs : rowsSpan cols ((B.flatMap fun b => M.getD b []).map fun r => r.map fun a : ℤ => (a : F)) =
      rowSpace F cols M B.toFinset := by
    unfold rowsSpan rowSpace
    congr 1
    ext v
    constructor
    · rintro ⟨_, hr', rfl⟩
      obtain ⟨r, hr, rfl⟩ := List.mem_map.1 hr'
      obtain ⟨b, hb, hr⟩ := List.mem_flatMap.1 hr
      exact ⟨b, List.mem_toFinset.2 hb, r, hr, hv r⟩
    · rintro ⟨b, hb, r, hr, rfl⟩
      exact ⟨_, List.mem_map_of_mem (List.mem_flatMap.2 ⟨b, List.mem_toFinset.1 hb, hr⟩), (hv r).symm⟩
  rw [elimRank_eq, hs]
  · rfl
  · intro r hr'
    obtain ⟨r, hr, rfl⟩ := List.mem_map.1 hr'
    obtain ⟨b, _, hr⟩ := List.mem_flatMap.1 hr
    rw [List.length_map]
    by_cases hb : b < M.length
    · rw [List.getD_eq_getElem _ _ hb] at hr
      exact hM _ (List.getElem_mem _) r hr
    · rw [List.getD_eq_default _ _ (by omega)] at hr
      simp at hr

omit [DecidableEq F]

theorem rowSpace_union (cols : ℕ) (M : List (List (List ℤ))) (S T : Finset ℕ) :
    rowSpace F cols M (S ∪ T) = rowSpace F cols M S ⊔ rowSpace F cols M T := by
  unfold rowSpace
  rw [← Submodule.span_union]
  congr 1
  ext v
  simp only [Set.mem_union, Set.mem_ofPred_eq, Finset.mem_union]
  constructor
  · rintro ⟨b, hb | hb, h⟩
    · exact .inl ⟨b, hb, h⟩
    · exact .inr ⟨b, hb, h⟩
  · rintro (⟨b, hb, h⟩ | ⟨b, hb, h⟩)
    · exact ⟨b, .inl hb, h⟩
    · exact ⟨b, .inr hb, h⟩

theorem rowSpace_mono (cols : ℕ) (M : List (List (List ℤ))) {S T : Finset ℕ} (h : S ⊆ T) :
    rowSpace F cols M S ≤ rowSpace F cols M T := by
  apply Submodule.span_mono
  rintro v ⟨b, hb, h'⟩
  exact ⟨b, h hb, h'⟩

theorem rowRank_mono (cols : ℕ) (M : List (List (List ℤ))) {S T : Finset ℕ} (h : S ⊆ T) :
    rowRank F cols M S ≤ rowRank F cols M T :=
  Submodule.finrank_mono (rowSpace_mono cols M h)

theorem rowRank_submodular (cols : ℕ) (M : List (List (List ℤ))) (S T : Finset ℕ) :
    rowRank F cols M (S ∪ T) + rowRank F cols M (S ∩ T) ≤ rowRank F cols M S + rowRank F cols M T := by
  unfold rowRank
  rw [← Submodule.finrank_sup_add_finrank_inf_eq (rowSpace F cols M S), rowSpace_union]
  apply Nat.add_le_add_left
  apply Submodule.finrank_mono
  exact le_inf (rowSpace_mono cols M Finset.inter_subset_left) (rowSpace_mono cols M Finset.inter_subset_right)

theorem rowRank_empty (cols : ℕ) (M : List (List (List ℤ))) : rowRank F cols M ∅ = 0 := by
  unfold rowRank rowSpace
  simp

end PSP.Theory
