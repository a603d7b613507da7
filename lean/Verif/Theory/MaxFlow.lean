import Mathlib.Algebra.BigOperators.Fin
import Mathlib.Algebra.Order.Floor.Ring
import Mathlib.Data.Rat.Floor
import Mathlib.Data.Int.LeastGreatest
import Mathlib.Data.List.Chain
import Verif.Theory.FlowNet
import Verif.Theory.PMFSlice

/-!
# Maximum flows exist

The assumptions on the flow solvers can be met: every network has a flow and a cut of the same size.
-/

namespace PSP.Theory

open PSP.Spec PSP.Model

section

variable {m : ℕ} (A : Fin m → NArc) (u : ℚ)

/-- Excess of a flow given by arc number. -/
def exF (φ : Fin m → ℚ) (x : NV) : ℚ :=
  ∑ k, ((if (A k).b = x then φ k else 0) - (if (A k).a = x then φ k else 0))

/-- Within the capacities, and multiples of `u`. -/
def Feas (φ : Fin m → ℚ) : Prop := ∀ k, 0 ≤ φ k ∧ φ k ≤ (A k).cap ∧ Gran u (φ k)

/-- An arc of the residual network. -/
def Res (φ : Fin m → ℚ) (x y : NV) : Prop :=
  ∃ k, ((A k).a = x ∧ (A k).b = y ∧ φ k < (A k).cap) ∨ ((A k).b = x ∧ (A k).a = y ∧ 0 < φ k)

variable {A u}

theorem Gran.lt_step {a b : ℚ} (hu : 0 < u) (ha : Gran u a) (hb : Gran u b) (h : a < b) : a + u ≤ b := by
  obtain ⟨k, rfl⟩ := ha
  obtain ⟨l, rfl⟩ := hb
  have h1 : (k : ℚ) < l := lt_of_mul_lt_mul_right h hu.le
  have h2 : k + 1 ≤ l := by exact_mod_cast h1
  have h3 : ((k : ℚ) + 1) * u ≤ l * u := mul_le_mul_of_nonneg_right (by exact_mod_cast h2) hu.le
  linarith

theorem exF_update (φ : Fin m → ℚ) (k : Fin m) (q : ℚ) (x : NV) :
    exF A (Function.update φ k (φ k + q)) x =
      exF A φ x + ((if (A k).b = x then q else 0) - (if (A k).a = x then q else 0)) := by
  unfold exF
  rw [← Finset.sum_erase_add _ _ (Finset.mem_univ k), ← Finset.sum_erase_add (a := k) (s := Finset.univ)
    (f := fun i => ((if (A i).b = x then φ i else 0) - (if (A i).a = x then φ i else 0)))
    (Finset.mem_univ k)]
  have h : ∑ i ∈ Finset.univ.erase k, ((if (A i).b = x then Function.update φ k (φ k + q) i else 0) -
        (if (A i).a = x then Function.update φ k (φ k + q) i else 0)) =
      ∑ i ∈ Finset.univ.erase k, ((if (A i).b = x then φ i else 0) - (if (A i).a = x then φ i else 0)) := by
    apply Finset.sum_congr rfl
    intro i hi
    rw [Function.update_of_ne (Finset.ne_of_mem_erase hi)]
  rw [h, Function.update_self]
  split <;> split <;> ring

/-- Push `u` along a path of the residual network. -/
theorem push_path (hu : 0 < u) (hcap : ∀ k, Gran u (A k).cap) (l : List NV) :
    ∀ (φ : Fin m → ℚ) (x : NV), Feas A u φ → (x :: l).IsChain (Res A φ) → (x :: l).Nodup →
    ∃ ψ, Feas A u ψ ∧ ∀ z, exF A ψ z = exF A φ z +
      ((if z = (x :: l).getLast (by simp) then u else 0) - (if z = x then u else 0)) := by
  induction l with
  | nil => intro φ x hφ _ _; exact ⟨φ, hφ, fun z => by
      rw [List.getLast_singleton, sub_self, add_zero]⟩
  | cons y l ih =>
    intro φ x hφ hch hnd
    rw [List.isChain_cons_cons] at hch
    obtain ⟨⟨k, hk⟩, hch⟩ := hch
    obtain ⟨hx, hnd⟩ := List.nodup_cons.1 hnd
    have hxy : x ≠ y := fun h => hx (h ▸ List.mem_cons_self)
    -- the flow after one step
    obtain ⟨q, hq, hfeas, hex⟩ : ∃ q, (((A k).a = x ∧ (A k).b = y) ∨ ((A k).b = x ∧ (A k).a = y)) ∧
        Feas A u (Function.update φ k (φ k + q)) ∧ ∀ z, exF A (Function.update φ k (φ k + q)) z =
          exF A φ z + ((if z = y then u else 0) - (if z = x then u else 0)) := by
      rcases hk with ⟨ha, hb, hlt⟩ | ⟨hb, ha, hlt⟩
      · refine ⟨u, Or.inl ⟨ha, hb⟩, ?_, ?_⟩
        · intro i
          by_cases hi : i = k
          · subst hi
            rw [Function.update_self]
            have := hφ i
            exact ⟨by linarith, Gran.lt_step hu this.2.2 (hcap i) hlt, this.2.2.add ⟨1, by simp⟩⟩
          · rw [Function.update_of_ne hi]; exact hφ i
        · intro z
          rw [exF_update, ha, hb]
          simp only [eq_comm]
      · refine ⟨-u, Or.inr ⟨hb, ha⟩, ?_, ?_⟩
        · intro i
          by_cases hi : i = k
          · subst hi
            rw [Function.update_self]
            have := hφ i
            have h1 := Gran.lt_step hu (Gran.zero u) this.2.2 hlt
            exact ⟨by linarith, by linarith, this.2.2.add ⟨-1, by simp⟩⟩
          · rw [Function.update_of_ne hi]; exact hφ i
        · intro z
          rw [exF_update, ha, hb]
          simp only [eq_comm (a := z)]
          split <;> split <;> ring
    set φ' := Function.update φ k (φ k + q) with hφ'
    have hch' : (y :: l).IsChain (Res A φ') := by
      refine hch.imp_of_mem_imp ?_
      intro p r hp hr ⟨i, hi⟩
      have hpx : p ≠ x := fun h => hx (h ▸ hp)
      have hrx : r ≠ x := fun h => hx (h ▸ hr)
      have hik : i ≠ k := by
        rintro rfl
        rcases hi with ⟨h1, h2, _⟩ | ⟨h1, h2, _⟩ <;> rcases hq with ⟨h3, h4⟩ | ⟨h3, h4⟩
        · exact hpx (h1.symm.trans h3)
        · exact hrx (h2.symm.trans h3)
        · exact hrx (h2.symm.trans h3)
        · exact hpx (h1.symm.trans h3)
      refine ⟨i, ?_⟩
      rw [hφ', Function.update_of_ne hik]
      exact hi
    obtain ⟨ψ, h1, h2⟩ := ih φ' y hfeas hch' hnd
    refine ⟨ψ, h1, fun z => ?_⟩
    rw [h2, hex, List.getLast_cons (a := x) (l := y :: l) (List.cons_ne_nil _ _)]
    ring

end

/-- A walk contains a path. -/
theorem exists_path {α : Type} [DecidableEq α] {R : α → α → Prop} {x t : α} (h : Relation.ReflTransGen R x t) :
    ∃ l : List α, (x :: l).IsChain R ∧ (x :: l).Nodup ∧ (x :: l).getLast (by simp) = t := by
  induction h using Relation.ReflTransGen.head_induction_on with
  | refl => exact ⟨[], by simp, by simp, by simp⟩
  | head hxy _ ih =>
    rename_i x y _
    obtain ⟨l, h1, h2, h3⟩ := ih
    by_cases hx : x ∈ y :: l
    · obtain ⟨s, t', hst⟩ := List.append_of_mem hx
      refine ⟨t', ?_, ?_, ?_⟩
      · rw [hst] at h1; exact h1.right_of_append
      · rw [hst] at h2; exact h2.of_append_right
      · rw [← h3]
        simp only [hst]
        rw [List.getLast_append_of_ne_nil _ (by simp)]
    · exact ⟨y :: l, List.isChain_cons_cons.2 ⟨hxy, h1⟩, List.nodup_cons.2 ⟨hx, h2⟩, by
        rw [List.getLast_cons (by simp)]; exact h3⟩

/-- A common unit for finitely many rational numbers. -/
theorem exists_flow_unit (L : List ℚ) : ∃ u : ℚ, 0 < u ∧ ∀ q ∈ L, Gran u q := by
  induction L with
  | nil => exact ⟨1, one_pos, by simp⟩
  | cons a L ih =>
    obtain ⟨u, hu, h⟩ := ih
    have hd : (0 : ℚ) < a.den * u.den := by
      have h1 : (0 : ℚ) < a.den := by exact_mod_cast a.den_pos
      have h2 : (0 : ℚ) < u.den := by exact_mod_cast u.den_pos
      positivity
    have hau : ∀ q : ℚ, (∃ k : ℤ, q * (a.den * u.den) = k) → Gran (1 / (a.den * u.den)) q := by
      rintro q ⟨k, hk⟩
      refine ⟨k, ?_⟩
      rw [← hk, mul_one_div, mul_div_assoc, div_self hd.ne', mul_one]
    have hu' : u * u.den = u.num := Rat.mul_den_eq_num u
    refine ⟨1 / (a.den * u.den), one_div_pos.2 hd, ?_⟩
    intro q hq
    rcases List.mem_cons.1 hq with rfl | hq
    · refine hau _ ⟨q.num * u.den, ?_⟩
      push_cast
      rw [← Rat.mul_den_eq_num q]
      ring
    · obtain ⟨k, rfl⟩ := h q hq
      refine hau _ ⟨k * u.num * a.den, ?_⟩
      push_cast
      rw [← hu']
      ring

theorem excess_ofFn (arcs : List NArc) (φ : Fin arcs.length → ℚ) (x : NV) :
    excess arcs (List.ofFn φ) x = exF (fun k => arcs[k]) φ x := by
  have h : arcs.zip (List.ofFn φ) = List.ofFn fun k : Fin arcs.length => (arcs[k], φ k) := by
    apply List.ext_getElem
    · simp
    · intro i h1 h2
      simp
  rw [excess_eq, exc, h, List.map_ofFn, List.sum_ofFn]
  rfl

/-- **Every network has a flow and a cut of the same size.** -/
theorem exists_maxflow {N : Net} (hN : N.Proper) :
    ∃ f, IsFlow N f ∧ ∃ X ⊆ N.verts, N.cutCap X = excess N.arcs f .snk := by
  classical
  obtain ⟨u, hu, hunit⟩ := exists_flow_unit (N.arcs.map NArc.cap)
  set A : Fin N.arcs.length → NArc := fun k => N.arcs[k] with hA
  have hAm : ∀ k, A k ∈ N.arcs := fun k => List.getElem_mem _
  have hcap : ∀ k, Gran u (A k).cap := fun k => hunit _ (List.mem_map_of_mem (hAm k))
  have hflow : ∀ φ, Feas A u φ → (∀ i, exF A φ (.v i) = 0) → IsFlow N (List.ofFn φ) := by
    intro φ h1 h2
    refine ⟨by simp, ?_, fun i => by rw [excess_ofFn]; exact h2 i⟩
    intro e he
    obtain ⟨i, hi, rfl⟩ := List.getElem_of_mem he
    simp only [List.length_zip, List.length_ofFn, min_self] at hi
    have := h1 ⟨i, hi⟩
    simp only [List.getElem_zip, List.getElem_ofFn]
    exact ⟨this.1, this.2.1⟩
  have hgran : ∀ φ, Feas A u φ → ∀ x, Gran u (exF A φ x) := by
    intro φ h x
    unfold exF
    have : ∀ s : Finset (Fin N.arcs.length), Gran u (∑ k ∈ s,
        ((if (A k).b = x then φ k else 0) - (if (A k).a = x then φ k else 0))) := by
      intro s
      induction s using Finset.induction_on with
      | empty => exact Gran.zero u
      | insert k s hk ih =>
        rw [Finset.sum_insert hk]
        refine Gran.add ?_ ih
        have h1 := (h k).2.2
        refine Gran.sub ?_ ?_ <;> split <;> first | exact h1 | exact Gran.zero u
    exact this _
  -- a largest flow
  obtain ⟨n, ⟨φ, hφ, hcons, hval⟩, hmax⟩ := Int.exists_greatest_of_bdd
    (P := fun n : ℤ => ∃ φ, Feas A u φ ∧ (∀ i, exF A φ (.v i) = 0) ∧ exF A φ .snk = n * u)
    (by
      refine ⟨Int.ceil (N.cutCap ∅ / u), ?_⟩
      rintro n ⟨φ, h1, h2, h3⟩
      have h4 := IsFlow.le_cut (hflow φ h1 h2) ∅
      rw [excess_ofFn] at h4
      have h5 : exF A φ .snk ≤ N.cutCap ∅ := h4
      rw [h3, ← le_div_iff₀ hu] at h5
      exact_mod_cast h5.trans (Int.le_ceil _))
    ⟨0, fun _ => 0, fun k => ⟨le_rfl, hN.nonneg _ (hAm k), Gran.zero u⟩, by simp [exF], by simp [exF]⟩
  have hf := hflow φ hφ hcons
  set Reach : NV → Prop := Relation.ReflTransGen (Res A φ) .src with hReach
  have hsnk : ¬ Reach .snk := by
    intro h
    obtain ⟨l, h1, h2, h3⟩ := exists_path h
    obtain ⟨ψ, h4, h5⟩ := push_path hu hcap l φ _ hφ h1 h2
    rw [h3] at h5
    have := hmax (n + 1) ⟨ψ, h4, fun i => by rw [h5, hcons]; simp, by
      rw [h5, hval]; push_cast; simp; ring⟩
    omega
  set X := N.verts.filter fun i => ¬ Reach (.v i) with hX
  refine ⟨_, hf, X, Finset.filter_subset _ _, ?_⟩
  rw [← sub_eq_zero, cut_sub_flow hf]
  have hsrc : ∀ e ∈ N.arcs, ∀ x, (x = e.a ∨ x = e.b) → x.onSink X = false → Reach x := by
    intro e he x hx h
    cases x with
    | src => exact Relation.ReflTransGen.refl
    | snk => simp [NV.onSink] at h
    | v i =>
      by_contra hn
      have hi : i ∈ N.verts := by
        rcases hx with hx | hx
        · exact hN.tail e he i hx.symm
        · exact hN.head e he i hx.symm
      have : i ∈ X := Finset.mem_filter.2 ⟨hi, hn⟩
      simp [NV.onSink, this] at h
  have hnot : ∀ x : NV, x.onSink X = true → ¬ Reach x := by
    intro x h
    cases x with
    | src => simp [NV.onSink] at h
    | snk => exact hsnk
    | v i =>
      have : i ∈ X := by simpa [NV.onSink] using h
      exact (Finset.mem_filter.1 this).2
  apply List.sum_eq_zero
  intro z hz
  obtain ⟨e, he, rfl⟩ := List.mem_map.1 hz
  obtain ⟨i, hi, rfl⟩ := List.getElem_of_mem he
  simp only [List.length_zip, List.length_ofFn, min_self] at hi
  simp only [List.getElem_zip, List.getElem_ofFn]
  have hb := hφ ⟨i, hi⟩
  have hm := hAm ⟨i, hi⟩
  change (if (A ⟨i, hi⟩).a.onSink X = false ∧ (A ⟨i, hi⟩).b.onSink X = true then
    (A ⟨i, hi⟩).cap - φ ⟨i, hi⟩ else 0) +
    (if (A ⟨i, hi⟩).a.onSink X = true ∧ (A ⟨i, hi⟩).b.onSink X = false then φ ⟨i, hi⟩ else 0) = 0
  set k : Fin N.arcs.length := ⟨i, hi⟩
  by_cases ha : (A k).a.onSink X = true
  · rw [if_neg (by simp [ha]), zero_add]
    split
    · rename_i h
      have h1 := hsrc _ hm _ (Or.inr rfl) h.2
      by_contra hne
      exact hnot _ ha (h1.tail ⟨k, Or.inr ⟨rfl, rfl, lt_of_le_of_ne hb.1 (Ne.symm hne)⟩⟩)
    · rfl
  · rw [if_neg (c := (A k).a.onSink X = true ∧ _) (fun h => ha h.1), add_zero]
    split
    · rename_i h
      have h1 := hsrc _ hm _ (Or.inl rfl) h.1
      by_contra hne
      refine hnot _ h.2 (h1.tail ⟨k, Or.inl ⟨rfl, rfl, lt_of_le_of_ne hb.2.1 ?_⟩⟩)
      intro h2
      rw [h2] at hne
      simp at hne
    · rfl

end PSP.Theory
