import Verif.Model.RoundedAIC
import Mathlib.Data.Finset.Card
import Mathlib.Algebra.Order.Ring.Rat
import Mathlib.Tactic.Linarith

/-!
# `Agglomerative_PSP::run` ends within `n + 1` rounds or never
-/

namespace PSP.Theory

open PSP.Model PSP.Spec

/-- The number of clusters that have a parent. -/
def nonroots (h : HC) : ℕ := ((Finset.range h.n).filter fun i => h.parent i ≠ i).card

theorem nonroots_le (h : HC) : nonroots h ≤ h.n := by
  unfold nonroots
  exact (Finset.card_filter_le _ _).trans (by rw [Finset.card_range])

theorem findAux_root (h : HC) : ∀ (k i : ℕ) {r : ℕ}, h.findAux k i = .ok r → r < h.n ∧ h.parent r = r := by
  intro k
  induction k with
  | zero => intro i r hr; cases hr
  | succ k ih =>
    intro i r hr
    unfold HC.findAux at hr
    split at hr
    · cases hr
    split at hr
    · rename_i h1 h2
      cases hr
      exact ⟨by omega, h2⟩
    · exact ih _ hr

theorem nonroots_attach {h : HC} {a b : ℕ} (ha : a < h.n) (hpa : h.parent a = a) (hab : b ≠ a)
    {h' : HC} (hn : h'.n = h.n) (hp : h'.parent = Function.update h.parent a b) : nonroots h < nonroots h' := by
  unfold nonroots
  rw [hn]
  apply Finset.card_lt_card
  constructor
  · intro i hi
    rw [Finset.mem_filter] at hi ⊢
    refine ⟨hi.1, ?_⟩
    rw [hp]
    by_cases hia : i = a
    · subst hia; simpa using hab
    · rw [Function.update_of_ne hia]; exact hi.2
  · intro hsub
    have : a ∈ (Finset.range h.n).filter fun i => h.parent i ≠ i := hsub (by
      rw [Finset.mem_filter, Finset.mem_range, hp]
      exact ⟨ha, by simpa using hab⟩)
    rw [Finset.mem_filter] at this
    exact this.2 hpa

/-- Nothing is changed, or one more cluster gets a parent. -/
def MergeGrows (h h' : HC) : Prop := h' = h ∨ (h'.n = h.n ∧ nonroots h < nonroots h')

theorem MergeGrows.trans {a b c : HC} (h1 : MergeGrows a b) (h2 : MergeGrows b c) : MergeGrows a c := by
  rcases h1 with rfl | ⟨h1, h1'⟩
  · exact h2
  · rcases h2 with rfl | ⟨h2, h2'⟩
    · exact .inr ⟨h1, h1'⟩
    · exact .inr ⟨h2.trans h1, h1'.trans h2'⟩

theorem merge_grows {h h' : HC} {i j : ℕ} {g : ℚ} {b : Bool} (hm : h.merge i j g = .ok (h', b)) : MergeGrows h h' := by
  unfold HC.merge at hm
  obtain ⟨a, ha, hm⟩ := Outcome.bind_eq_ok hm
  obtain ⟨c, hc, hm⟩ := Outcome.bind_eq_ok hm
  obtain ⟨ha1, ha2⟩ := findAux_root h _ _ ha
  obtain ⟨hc1, hc2⟩ := findAux_root h _ _ hc
  simp only [Outcome.pure_eq] at hm
  split at hm
  · cases hm; exact .inl rfl
  rename_i hne
  have hac : a ≠ c := fun e => hne (.inl e)
  right
  have e1 : (if h.gamma = [] ∨ ∃ b ∈ h.gamma.getLast?, b > g then { h with gamma := h.gamma ++ [g] } else h : HC).parent =
    h.parent := by split <;> rfl
  have e2 : (if h.gamma = [] ∨ ∃ b ∈ h.gamma.getLast?, b > g then { h with gamma := h.gamma ++ [g] } else h : HC).n =
    h.n := by split <;> rfl
  generalize (if h.gamma = [] ∨ ∃ b ∈ h.gamma.getLast?, b > g then { h with gamma := h.gamma ++ [g] } else h : HC) = h1
    at hm e1 e2
  split at hm
  · split at hm
    · cases hm
      refine ⟨e2, nonroots_attach ha1 ha2 (Ne.symm hac) e2 ?_⟩
      simp only [HC.attach, e1]
    · cases hm
      refine ⟨e2, nonroots_attach ha1 ha2 (Ne.symm hac) e2 ?_⟩
      simp only [HC.attach, e1]
  · cases hm
    refine ⟨e2, nonroots_attach hc1 hc2 hac e2 ?_⟩
    simp only [HC.attach, e1]

theorem mergeAll_grows : ∀ (cs : List Link) {h h' : HC}, h.mergeAll cs = .ok h' → MergeGrows h h' := by
  intro cs
  induction cs with
  | nil => intro h h' hm; cases hm; exact .inl rfl
  | cons c cs ih =>
    intro h h' hm
    unfold HC.mergeAll at hm
    obtain ⟨⟨h1, b⟩, h2, h3⟩ := Outcome.bind_eq_ok hm
    exact (merge_grows h2).trans (ih h3)

theorem agglomerate_grows {mnb : SF → Outcome (List ℚ)} {f : SF} {tol : ℚ} {h h' : HC} {b : Bool}
    (hm : agglomerate mnb f tol h = .ok (h', b)) : MergeGrows h h' := by
  unfold agglomerate at hm
  obtain ⟨P, -, hm⟩ := Outcome.bind_eq_ok hm
  split at hm
  · cases hm; exact .inl rfl
  obtain ⟨xs, -, hm⟩ := Outcome.bind_eq_ok hm
  split at hm
  · cases hm; exact .inl rfl
  · obtain ⟨h1, h2, h3⟩ := Outcome.bind_eq_ok hm
    cases h3
    exact mergeAll_grows _ h2

theorem agglomerateF_grows {fl : ℚ → ℚ} {mnb : SF → Outcome (List ℚ)} {f : SF} {tol : ℚ} {h h' : HC} {b : Bool}
    (hm : agglomerateF fl mnb f tol h = .ok (h', b)) : MergeGrows h h' := by
  unfold agglomerateF at hm
  obtain ⟨P, -, hm⟩ := Outcome.bind_eq_ok hm
  split at hm
  · cases hm; exact .inl rfl
  obtain ⟨xs, -, hm⟩ := Outcome.bind_eq_ok hm
  split at hm
  · cases hm; exact .inl rfl
  · obtain ⟨h1, h2, h3⟩ := Outcome.bind_eq_ok hm
    cases h3
    exact mergeAll_grows _ h2

/-- The loop of `run` with any step. -/
def stepLoop (step : HC → Outcome (HC × Bool)) : ℕ → HC → List Partition → List ℚ → Outcome (List Partition × List ℚ)
  | 0, _, _, _ => .fuel
  | k + 1, h, ps, cv => do
    let (h', more) ← step h
    if more then
      let P ← h'.getCoarsestPartition
      match h'.getCriticalValues.getLast? with
      | none => .ub "back() of an empty vector"
      | some c => stepLoop step k h' (toPartition P :: ps) (c :: cv)
    else return (ps, cv)

theorem aggLoop_step (mnb : SF → Outcome (List ℚ)) (f : SF) (tol : ℚ) : ∀ (k : ℕ) (h : HC) (ps : List Partition)
    (cv : List ℚ), aggLoop mnb f tol k h ps cv = stepLoop (agglomerate mnb f tol) k h ps cv := by
  intro k
  induction k with
  | zero => intro h ps cv; rfl
  | succ k ih =>
    intro h ps cv
    unfold aggLoop stepLoop
    simp only [ih]
    rfl

theorem aggLoopF_step (fl : ℚ → ℚ) (mnb : SF → Outcome (List ℚ)) (f : SF) (tol : ℚ) : ∀ (k : ℕ) (h : HC)
    (ps : List Partition) (cv : List ℚ), aggLoopF fl mnb f tol k h ps cv = stepLoop (agglomerateF fl mnb f tol) k h ps cv := by
  intro k
  induction k with
  | zero => intro h ps cv; rfl
  | succ k ih =>
    intro h ps cv
    unfold aggLoopF stepLoop
    simp only [ih]
    rfl

variable {step : HC → Outcome (HC × Bool)}

/-- After a round without a merge nothing changes any more. -/
theorem stepLoop_forever {h : HC} {L : List (List ℕ)} {c : ℚ} (hs : step h = .ok (h, true))
    (hP : h.getCoarsestPartition = .ok L) (hc : h.getCriticalValues.getLast? = some c) :
    ∀ (k : ℕ) (ps : List Partition) (cv : List ℚ), stepLoop step k h ps cv = .fuel := by
  intro k
  induction k with
  | zero => intro ps cv; rfl
  | succ k ih =>
    intro ps cv
    unfold stepLoop
    simp only [hs, Outcome.ok_bind, if_true, hP, hc]
    exact ih _ _

/-- One round. -/
theorem stepLoop_round (step : HC → Outcome (HC × Bool)) (h : HC) :
    (∃ o : List Partition → List ℚ → Outcome (List Partition × List ℚ),
      ∀ k ps cv, stepLoop step (k + 1) h ps cv = o ps cv) ∨
    ∃ h' L c, step h = .ok (h', true) ∧ h'.getCoarsestPartition = .ok L ∧ h'.getCriticalValues.getLast? = some c ∧
      ∀ k ps cv, stepLoop step (k + 1) h ps cv = stepLoop step k h' (toPartition L :: ps) (c :: cv) := by
  cases hs : step h with
  | exc s => exact .inl ⟨fun _ _ => .exc s, fun k ps cv => by unfold stepLoop; rw [hs]; rfl⟩
  | ub s => exact .inl ⟨fun _ _ => .ub s, fun k ps cv => by unfold stepLoop; rw [hs]; rfl⟩
  | nan => exact .inl ⟨fun _ _ => .nan, fun k ps cv => by unfold stepLoop; rw [hs]; rfl⟩
  | fuel => exact .inl ⟨fun _ _ => .fuel, fun k ps cv => by unfold stepLoop; rw [hs]; rfl⟩
  | ok r =>
    obtain ⟨h', b⟩ := r
    cases b with
    | false => exact .inl ⟨fun ps cv => .ok (ps, cv), fun k ps cv => by unfold stepLoop; rw [hs]; rfl⟩
    | true =>
      cases hP : h'.getCoarsestPartition with
      | exc s => exact .inl ⟨fun _ _ => .exc s, fun k ps cv => by
          unfold stepLoop; simp only [hs, Outcome.ok_bind, if_true, hP]; rfl⟩
      | ub s => exact .inl ⟨fun _ _ => .ub s, fun k ps cv => by
          unfold stepLoop; simp only [hs, Outcome.ok_bind, if_true, hP]; rfl⟩
      | nan => exact .inl ⟨fun _ _ => .nan, fun k ps cv => by
          unfold stepLoop; simp only [hs, Outcome.ok_bind, if_true, hP]; rfl⟩
      | fuel => exact .inl ⟨fun _ _ => .fuel, fun k ps cv => by
          unfold stepLoop; simp only [hs, Outcome.ok_bind, if_true, hP]; rfl⟩
      | ok L =>
        cases hc : h'.getCriticalValues.getLast? with
        | none => exact .inl ⟨fun _ _ => .ub "back() of an empty vector", fun k ps cv => by
            conv_lhs => unfold stepLoop
            simp only [hs, Outcome.ok_bind, if_true, hP, hc]⟩
        | some c => exact .inr ⟨h', L, c, rfl, hP, hc, fun k ps cv => by
            conv_lhs => unfold stepLoop
            simp only [hs, Outcome.ok_bind, if_true, hP, hc]⟩

theorem stepLoop_dichotomy (hg : ∀ h h' b, step h = .ok (h', b) → MergeGrows h h') : ∀ (d : ℕ) (h : HC)
    (ps : List Partition) (cv : List ℚ), h.n - nonroots h ≤ d →
    (∀ k, stepLoop step k h ps cv = .fuel) ∨ ∃ o, o ≠ .fuel ∧ ∀ k, d < k → stepLoop step k h ps cv = o := by
  intro d
  induction d with
  | zero =>
    intro h ps cv hd
    rcases stepLoop_round step h with ⟨o, ho⟩ | ⟨h', L, c, h1, h2, h3, h4⟩
    · by_cases hf : o ps cv = .fuel
      · refine .inl fun k => ?_
        cases k with
        | zero => rfl
        | succ k => rw [ho, hf]
      · refine .inr ⟨o ps cv, hf, fun k hk => ?_⟩
        obtain ⟨k, rfl⟩ : ∃ m, k = m + 1 := ⟨k - 1, by omega⟩
        exact ho _ _ _
    · rcases hg _ _ _ h1 with h5 | ⟨h5, h6⟩
      · subst h5
        exact .inl fun k => stepLoop_forever h1 h2 h3 k ps cv
      · have := nonroots_le h'
        omega
  | succ d ih =>
    intro h ps cv hd
    rcases stepLoop_round step h with ⟨o, ho⟩ | ⟨h', L, c, h1, h2, h3, h4⟩
    · by_cases hf : o ps cv = .fuel
      · refine .inl fun k => ?_
        cases k with
        | zero => rfl
        | succ k => rw [ho, hf]
      · refine .inr ⟨o ps cv, hf, fun k hk => ?_⟩
        obtain ⟨k, rfl⟩ : ∃ m, k = m + 1 := ⟨k - 1, by omega⟩
        exact ho _ _ _
    · rcases hg _ _ _ h1 with h5 | ⟨h5, h6⟩
      · subst h5
        exact .inl fun k => stepLoop_forever h1 h2 h3 k ps cv
      · rcases ih h' (toPartition L :: ps) (c :: cv) (by omega) with h7 | ⟨o, h7, h8⟩
        · refine .inl fun k => ?_
          cases k with
          | zero => rfl
          | succ k => rw [h4, h7]
        · refine .inr ⟨o, h7, fun k hk => ?_⟩
          obtain ⟨k, rfl⟩ : ∃ m, k = m + 1 := ⟨k - 1, by omega⟩
          rw [h4]
          exact h8 k (by omega)

/-- The second round changes nothing. -/
def secondStuck (step : HC → Outcome (HC × Bool)) (h : HC) : Bool :=
  match step h with
  | .ok (h1, true) =>
    match step h1, h1.getCoarsestPartition, h1.getCriticalValues.getLast? with
    | .ok (h2, true), .ok _, some _ => nonroots h2 == nonroots h1
    | _, _, _ => false
  | _ => false

theorem stepLoop_second (hg : ∀ h h' b, step h = .ok (h', b) → MergeGrows h h') {h : HC} (ht : secondStuck step h = true) :
    ∃ h1, step h = .ok (h1, true) ∧ step h1 = .ok (h1, true) ∧ ∀ k ps cv, stepLoop step k h ps cv = .fuel := by
  unfold secondStuck at ht
  split at ht
  · rename_i h1 e1
    split at ht
    · rename_i h2 L c e2 e3 e4
      have he : h2 = h1 := by
        rcases hg _ _ _ e2 with h5 | ⟨-, h5⟩
        · exact h5
        · rw [beq_iff_eq] at ht
          omega
      subst he
      refine ⟨h2, e1, e2, fun k ps cv => ?_⟩
      cases k with
      | zero => rfl
      | succ k =>
        unfold stepLoop
        simp only [e1, Outcome.ok_bind, if_true, e3, e4]
        exact stepLoop_forever e2 e3 e4 k _ _
    · cases ht
  · cases ht

end PSP.Theory
