import Verif.Theory.LifePSP

/-!
# C60: the graphs of `PSP` objects

A program creates objects of class `PSP`, runs and copies them and ends their lifetime; it may also hand over graphs
of its own. `PSPOp.Legal` says that the program keeps to the rules of C++ and ends all its variables.
Property C60: such a program never uses or deletes a graph that is gone, and no graph remains.
-/

namespace PSP.Props

open PSP.Model PSP.Theory

private theorem AllAllowed.to {P : PSPOp → PSPScope → Prop} {ops : List PSPOp} {sc a b : PSPScope}
    (h : PSPOp.AllAllowed P ops sc a) (e : a = b) : PSPOp.AllAllowed P ops sc b := e ▸ h

/-- **C60 (part).** Proved for programs that copy only objects made from graphs of the caller and that construct
objects from lists only for at least one node. The objects on the heap afterwards are those from before. -/
theorem C60_lifetime_partial (ops : List PSPOp) (hops : PSPOp.AllAllowed PSPOp.Careful ops .empty .empty)
    (hpos : ∀ v np, PSPOp.newList v np ∈ ops → 0 < np) (h : Heap) (hw : ∀ a ∈ h.live, a < h.next) :
    ∃ h' s', PSPOp.steps ops .empty h = (h', .ok s') ∧ h'.live = h.live := by
  obtain ⟨h', s', lost, own, e, I, c⟩ := steps_inv ops (LifeInv.start hw) hops
  refine ⟨h', s', e, ?_⟩
  have h0 : ops.countP PSPOp.isEmptyGraph = 0 := by
    rw [List.countP_eq_zero]
    intro op hop
    cases op with
    | newList v np => simpa [PSPOp.isEmptyGraph] using hpos v np hop
    | _ => simp [PSPOp.isEmptyGraph]
  rw [h0] at c
  have : lost = ∅ := by simpa using c
  ext a
  rw [I.finish.1, this]
  simp

/-- **C60, the number of objects that remain**: two for every construction from a list for no nodes, since the
destructor takes such an object for one that uses a graph of the caller (psp.cpp:28-34). -/
theorem C60_count (ops : List PSPOp) (hops : PSPOp.AllAllowed PSPOp.Careful ops .empty .empty) (h : Heap)
    (hw : ∀ a ∈ h.live, a < h.next) :
    ∃ h' s', PSPOp.steps ops .empty h = (h', .ok s') ∧ h.live ⊆ h'.live ∧
      h'.live.card = h.live.card + 2 * ops.countP PSPOp.isEmptyGraph := by
  obtain ⟨h', s', lost, own, e, I, c⟩ := steps_inv ops (LifeInv.start hw) hops
  refine ⟨h', s', e, fun a ha => (I.finish.1 a).2 (Or.inl ha), ?_⟩
  rw [I.finish.2, c]
  simp

/-- **C60, at any time.** Also a program that has not ended its variables yet did nothing wrong so far, and what
existed before it still exists. -/
theorem C60_safe (ops : List PSPOp) (sc : PSPScope) (hops : PSPOp.AllAllowed PSPOp.Careful ops .empty sc) (h : Heap)
    (hw : ∀ a ∈ h.live, a < h.next) :
    ∃ h' s', PSPOp.steps ops .empty h = (h', .ok s') ∧ h.live ⊆ h'.live := by
  obtain ⟨h', s', lost, own, e, I, c⟩ := steps_inv ops (LifeInv.start hw) hops
  exact ⟨h', s', e, fun a ha => (I.live a).2 (Or.inl ha)⟩

/-- A program for the examples: two objects from lists, one from a graph of the caller and a copy of it. -/
def lifeOps : List PSPOp :=
  [.newList 0 3, .graph 0, .newGraph 1 0, .run 0 true, .copy 2 1, .destroy 1, .run 2 true, .newList 1 2, .run 1 false,
    .destroy 0, .destroy 1, .destroy 2, .dropGraph 0]

theorem lifeOps_careful : PSPOp.AllAllowed PSPOp.Careful lifeOps .empty .empty := by
  refine AllAllowed.to (.cons (.newList rfl) trivial <| .cons (.graph rfl) trivial <|
    .cons (.newGraph (by simp [PSPScope.empty]) (by simp)) trivial <| .cons (.run (by simp)) trivial <|
    .cons (.copy (by simp [PSPScope.empty]) (by simp)) (by simp [PSPOp.Careful]) <| .cons (.destroy (by simp)) trivial <|
    .cons (.run (by simp)) trivial <| .cons (.newList (by simp)) trivial <| .cons (.run (by simp)) trivial <|
    .cons (.destroy (by simp)) trivial <| .cons (.destroy (by simp)) trivial <| .cons (.destroy (by simp)) trivial <|
    .cons (.dropGraph (by simp) ?_) trivial .nil) ?_
  · intro v
    simp only [Function.update_apply, PSPScope.empty]
    split_ifs <;> simp
  · unfold PSPScope.empty
    congr 1
    · funext v
      simp only [Function.update_apply]
      split_ifs <;> simp
    · funext k
      simp only [Function.update_apply]
      split_ifs <;> simp

/-- The program of the example on a heap with one object of somebody else. -/
example : ∃ h' s', PSPOp.steps lifeOps .empty ⟨5, {4}⟩ = (h', .ok s') ∧ h'.live = {4} :=
  C60_lifetime_partial lifeOps lifeOps_careful (by
    intro v np hm
    simp only [lifeOps, List.mem_cons, PSPOp.newList.injEq, reduceCtorEq, List.not_mem_nil, or_false, false_or] at hm
    omega) _ (by decide)

/-- The same with the order of the last two steps changed breaks a rule: the graph ends before the object that uses
it. -/
example : PSPOp.steps [.graph 0, .newGraph 1 0, .dropGraph 0, .run 1 true] .empty ⟨0, ∅⟩ =
    (⟨2, ∅⟩, .ub "use of a deleted object") := by
  rfl

private theorem legal_of {ops : List PSPOp} {a : PSPScope}
    (h : PSPOp.AllAllowed (fun _ _ => True) ops .empty a) (e : a = .empty) : PSPOp.Legal ops :=
  AllAllowed.to h e

/-- An object, its copy, and the end of both. -/
theorem copyOps_legal : PSPOp.Legal [.newList 0 2, .copy 1 0, .destroy 1, .destroy 0] := by
  refine legal_of (.cons (.newList rfl) trivial <| .cons (.copy (by simp [PSPScope.empty]) (by simp)) trivial <|
    .cons (.destroy (by simp)) trivial <| .cons (.destroy (by simp)) trivial .nil) ?_
  unfold PSPScope.empty
  congr 1
  funext v
  simp only [Function.update_apply]
  split_ifs <;> simp

/-- **C60 is violated by copies**: the class has no copy constructor of its own, the copy shares the graph, and the
second destructor deletes it again. -/
theorem C60_copy_violated :
    PSPOp.Legal [.newList 0 2, .copy 1 0, .destroy 1, .destroy 0] ∧
      (PSPOp.steps [.newList 0 2, .copy 1 0, .destroy 1, .destroy 0] .empty ⟨0, ∅⟩).2 =
        .ub "object deleted twice" :=
  ⟨copyOps_legal, rfl⟩

/-- **C60 is violated by a copy that outlives the original**: its `run` uses the deleted graph. -/
theorem C60_copy_use_violated :
    PSPOp.Legal [.newList 0 2, .copy 1 0, .destroy 0, .run 1 true, .destroy 1] ∧
      (PSPOp.steps [.newList 0 2, .copy 1 0, .destroy 0, .run 1 true, .destroy 1] .empty ⟨0, ∅⟩).2 =
        .ub "use of a deleted object" := by
  refine ⟨legal_of (.cons (.newList rfl) trivial <| .cons (.copy (by simp [PSPScope.empty]) (by simp)) trivial <|
    .cons (.destroy (by simp)) trivial <| .cons (.run (by simp)) trivial <| .cons (.destroy (by simp)) trivial .nil) ?_,
    rfl⟩
  unfold PSPScope.empty
  congr 1
  funext v
  simp only [Function.update_apply]
  split_ifs <;> simp

/-- **C60 is violated by an assignment**: the graph of the left side is lost, here the left side is an object with
a graph of its own and the right side one that uses a graph of the caller. Nothing else goes wrong. -/
theorem C60_assign_violated :
    PSPOp.Legal [.newList 0 2, .graph 0, .newGraph 1 0, .assign 0 1, .destroy 0, .destroy 1, .dropGraph 0] ∧
      ∃ h' s', PSPOp.steps [.newList 0 2, .graph 0, .newGraph 1 0, .assign 0 1, .destroy 0, .destroy 1, .dropGraph 0]
        .empty ⟨0, ∅⟩ = (h', .ok s') ∧ h'.live = {0, 1} := by
  refine ⟨legal_of (.cons (.newList rfl) trivial <| .cons (.graph rfl) trivial <|
    .cons (.newGraph (by simp [PSPScope.empty]) (by simp)) trivial <| .cons (.assign (by simp) (by simp)) trivial <|
    .cons (.destroy (by simp)) trivial <| .cons (.destroy (by simp)) trivial <|
    .cons (.dropGraph (by simp) ?_) trivial .nil) ?_, _, _, rfl, by decide⟩
  · intro v
    simp only [Function.update_apply, PSPScope.empty]
    split_ifs <;> simp
  · unfold PSPScope.empty
    congr 1
    · funext v
      simp only [Function.update_apply]
      split_ifs <;> simp
    · funext k
      simp only [Function.update_apply]
      split_ifs <;> simp

/-- **C60 is violated for a graph without nodes**: it is never deleted. -/
theorem C60_empty_violated :
    PSPOp.Legal [.newList 0 0, .destroy 0] ∧
      ∃ h' s', PSPOp.steps [.newList 0 0, .destroy 0] .empty ⟨0, ∅⟩ = (h', .ok s') ∧ h'.live = {0, 1} := by
  refine ⟨legal_of (.cons (.newList rfl) trivial <| .cons (.destroy (by simp)) trivial .nil) ?_, _, _, rfl, by decide⟩
  unfold PSPScope.empty
  congr 1
  funext v
  simp only [Function.update_apply]
  split_ifs <;> simp

end PSP.Props
