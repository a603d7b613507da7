import Verif.Spec.Connected
import Verif.Theory.ChowLiu

/-!
# Theory: connected nodes and optimal partitions
-/

namespace PSP.Theory

open PSP.Spec PSP.Model Relation

variable {V : Finset ℕ} {P : Finset (Finset ℕ)} {E : List Arc} {lam : ℚ}

theorem ConnectedIn.mono {S T : Finset ℕ} (h : S ⊆ T) {u v : ℕ} (hc : ConnectedIn E S u v) : ConnectedIn E T u v :=
  eqvGen_le (fun _ _ hxy => ⟨h hxy.1, h hxy.2.1, hxy.2.2⟩) hc

/-- The blocks of a partition that is optimal at a positive parameter are connected. -/
theorem block_connected (hE : NonnegE E) (hW : Within E V) (h0 : 0 < lam) (hP : IsOptimal E V lam P) {B : Finset ℕ}
    (hB : B ∈ P) {u v : ℕ} (hu : u ∈ B) (hv : v ∈ B) : ConnectedIn E B u v := by
  refine joined_of_cut hW hP hB (fun u _ S _ hm _ => lt_of_le_of_lt (le_of_eq ?_) h0) hu hv
  refine List.sum_eq_zero fun x hx => ?_
  obtain ⟨e, he, rfl⟩ := List.mem_map.1 hx
  obtain ⟨heE, hs, hd⟩ := mem_induced.1 he
  split_ifs with h
  · rfl
  · by_contra hne
    have hpos : 0 < e.cap := lt_of_le_of_ne (hE e heE) (Ne.symm hne)
    have hj : ConnectedIn E B e.src e.dst := EqvGen.rel _ _ ⟨hs, hd, e, heE, rfl, rfl, hpos⟩
    apply h
    rw [hm, hm]
    exact ⟨fun h => ⟨hd, h.2.trans _ _ _ hj⟩, fun h => ⟨hs, h.2.trans _ _ _ (hj.symm _ _)⟩⟩

/-- Connected nodes are together in every partition that is optimal at the parameter zero. -/
theorem same_of_connected (hE : NonnegE E) (hW : Within E V) (hP : IsOptimal E V 0 P) {S : Finset ℕ} {u v : ℕ}
    (h : ConnectedIn E S u v) : u = v ∨ Same P u v := by
  refine same_of_joined hE hW hP (eqvGen_le ?_ h)
  rintro x y ⟨-, -, e, he, rfl, rfl, hpos⟩
  exact ⟨⟨e.src, e.dst, e.cap⟩, List.mem_map.2 ⟨e, he, rfl⟩, rfl, rfl, WithBot.coe_lt_coe.2 hpos⟩

/-- A set that holds together at a positive threshold is connected. -/
theorem holds_connected (hE : NonnegE E) (h0 : 0 < lam) {S : Finset ℕ} (h : HoldsTogether E lam S) {u v : ℕ} (hu : u ∈ S)
    (hv : v ∈ S) : ConnectedIn E S u v := by
  have h1 := block_connected (fun e he => hE e (mem_induced.1 he).1) (fun e he => (mem_induced.1 he).2) h0
    (holds_optimal ⟨u, hu⟩ fun Q hQ h2 => (h Q hQ h2).le) (Finset.mem_singleton_self S) hu hv
  refine eqvGen_le ?_ h1
  rintro x y ⟨hx, hy, e, he, h2⟩
  exact ⟨hx, hy, e, (mem_induced.1 he).1, h2⟩

/-- The ends of an edge hold together below its weight. -/
theorem edge_holds (hE : NonnegE E) {e : Arc} (he : e ∈ E) (hne : e.src ≠ e.dst) {γ : ℚ} (hγ : γ < e.cap) :
    HoldsTogether E γ {e.src, e.dst} := by
  intro Q hQ h2
  have hcard : Q.card = 2 := by
    have := hQ.card_le
    rw [Finset.card_pair hne] at this
    omega
  have hsep : ¬ Same Q e.src e.dst := by
    rintro ⟨B, hB, hs, hd⟩
    have : Q ⊆ {B} := by
      intro C hC
      obtain ⟨x, hx⟩ := hQ.nonempty hC
      rw [Finset.mem_singleton]
      rcases Finset.mem_insert.1 (hQ.subset hC hx) with rfl | hx'
      · exact hQ.eq_of_mem hC hB hx hs
      · rw [Finset.mem_singleton] at hx'
        exact hQ.eq_of_mem hC hB hx (hx' ▸ hd)
    have := Finset.card_le_card this
    rw [Finset.card_singleton] at this
    omega
  have hle : e.cap ≤ brokenWeight E {e.src, e.dst} Q := by
    refine List.single_le_sum ?_ _ (List.mem_map.2 ⟨e, he, if_pos ⟨⟨by simp, by simp⟩, hsep⟩⟩)
    intro x hx
    obtain ⟨d, hd, rfl⟩ := List.mem_map.1 hx
    have := hE d hd
    split_ifs
    · exact this
    · exact le_rfl
  rw [hcard]
  norm_num
  exact lt_of_lt_of_le hγ hle

end PSP.Theory
