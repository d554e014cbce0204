import Verif.Proofs.HistoryBlocks
import Verif.Proofs.SecondOrder
import Verif.Props.SecondOrder

/-!
# Values, gradients and Hessians do not depend on what was computed before, for tapes of arbitrary blocks (C55)
-/

namespace Pyadjoint

variable {V T A : Type*}

/-! ## Specification: what may have happened before -/

/-- Calls that use a recorded tape. -/
inductive BlockCall (V T A : Type*)
  /-- `rf(xs)`. -/
  | eval (xs : List V)
  /-- `rf(xs)` that raised in block `k`, component `j`. -/
  | crash (xs : List V) (k j : Nat)
  /-- `compute_gradient` of any functional on the tape with respect to any controls. -/
  | derivative (J : BV) (cs : List BV) (seed : A)
  /-- Tangents of any controls, and `tape.evaluate_tlm()`, with or without resetting before. -/
  | tangent (reset : Bool) (cs : List BV) (ds : List T)
  /-- `compute_hessian` of any functional on the tape with respect to any controls. -/
  | hessian (J : BV) (cs : List BV) (ds : List T)

/-- One call; `cs` are the controls of `rf`. -/
def BlockCall.step [Add T] [Add A] [Zero A] (bs : Blocks V T A) (cs : List BV) (h : Heap V T A) : BlockCall V T A → Heap V T A
  | .eval xs => rfEval bs cs xs h
  | .crash xs k j => crashedEval bs cs xs k j h
  | .derivative J' cs' seed => computeGradientState bs J' cs' seed h
  | .tangent r cs' ds => evaluateTlm bs false (seedTlm cs' ds (if r then resetVariables bs .tlm h else h))
  | .hessian J' cs' ds => (computeHessianOf bs J' cs' ds h).2

/-- Any number of calls. -/
def runBlockCalls [Add T] [Add A] [Zero A] (bs : Blocks V T A) (cs : List BV) (l : List (BlockCall V T A)) (h : Heap V T A) : Heap V T A :=
  l.foldl (fun h c => c.step bs cs h) h

/-! ## Proof -/

/-- What no call changes. -/
structure Base (bs : Blocks V T A) (cs : List BV) (h₀ h : Heap V T A) : Prop where
  output : ∀ v, (h v).output = (h₀ v).output
  flags : ∀ v, (h v).isControl = false
  marks : ∀ v, (h v).marked = false
  kept : ∀ v, Kept bs cs v → (h v).ckpt = (h₀ v).ckpt

theorem computeHessianOf_frame [Add T] [Add A] [Zero A] (bs : Blocks V T A) (J : BV) (cs : List BV) (ds : List T) (h : Heap V T A)
    (hmk : ∀ v, (h v).marked = false) (v : BV) : ∃ t a, (computeHessianOf bs J cs ds h).2 v = { h v with tlm := t, hess := a } := by
  have e0 : ∃ t a, resetVariables bs .hessian (resetVariables bs .tlm h) v = { h v with tlm := t, hess := a } := by
    simp only [resetVariables_apply]
    by_cases hv : OnTape bs v
    · simp only [if_pos hv, Var.reset]; exact ⟨_, _, rfl⟩
    · simp only [if_neg hv]; exact ⟨_, _, rfl⟩
  unfold computeHessianOf
  simp only []
  obtain ⟨t0, a0, e0⟩ := e0
  obtain ⟨t1, e1⟩ := seedTlm_frame cs ds (resetVariables bs .hessian (resetVariables bs .tlm h)) v
  set g1 := seedTlm cs ds (resetVariables bs .hessian (resetVariables bs .tlm h))
  obtain ⟨t2, e2⟩ := evaluateTlm_frame bs true (markAll (findRelevantNodes bs cs) true g1) v
  set g2 := markAll (findRelevantNodes bs cs) false (evaluateTlm bs true (markAll (findRelevantNodes bs cs) true g1)) with hg2
  have e3 : g2 v = { h v with tlm := t2, hess := a0 } := by
    rw [hg2, markAll_apply, e2, markAll_apply, e1, e0]
    have := hmk v
    cases hx : h v
    rw [hx] at this
    simp only at this
    subst this
    by_cases m : v ∈ findRelevantNodes bs cs <;> simp [m]
  have e4 : ∃ a, Function.update g2 J { g2 J with hess := some 0 } v = { h v with tlm := t2, hess := a } := by
    by_cases hv : v = J
    · subst hv; exact ⟨some 0, by rw [Function.update_self, e3]⟩
    · exact ⟨a0, by rw [Function.update_of_ne hv, e3]⟩
  obtain ⟨a4, e4⟩ := e4
  set g3 := Function.update g2 J { g2 J with hess := some 0 }
  obtain ⟨a5, e5⟩ := evaluateHessian_frame bs true (markAll (findRelevantNodes bs cs) true g3) v
  refine ⟨t2, a5, ?_⟩
  rw [markAll_apply, e5, markAll_apply, e4]
  have := hmk v
  cases hx : h v
  rw [hx] at this
  simp only at this
  subst this
  by_cases m : v ∈ findRelevantNodes bs cs <;> simp [m]

theorem Base.refl {bs : Blocks V T A} {cs : List BV} {h : Heap V T A} (hfl : ∀ v, (h v).isControl = false) (hmk : ∀ v, (h v).marked = false) :
    Base bs cs h h := ⟨fun _ => rfl, hfl, hmk, fun _ _ => rfl⟩

theorem Base.of_frame {bs : Blocks V T A} {cs : List BV} {h₀ h h' : Heap V T A} (s : Base bs cs h₀ h)
    (fr : ∀ v, ∃ a t e, h' v = { h v with adj := a, tlm := t, hess := e }) : Base bs cs h₀ h' := by
  refine ⟨fun v => ?_, fun v => ?_, fun v => ?_, fun v hv => ?_⟩ <;> (obtain ⟨a, t, e, ho⟩ := fr v; rw [ho])
  · exact s.output v
  · exact s.flags v
  · exact s.marks v
  · exact s.kept v hv

theorem Base.eval {bs : Blocks V T A} (wf : WF bs) {cs : List BV} {h₀ h : Heap V T A} (s : Base bs cs h₀ h) (xs : List V) :
    Base bs cs h₀ (rfEval bs cs xs h) := by
  have fr := fun v => rfEval_frame bs cs xs h v (fun c _ => s.flags c)
  refine ⟨fun v => ?_, fun v => ?_, fun v => ?_, fun v hv => (rfEval_kept wf cs xs h v hv).trans (s.kept v hv)⟩ <;>
    (obtain ⟨o, ho⟩ := fr v; rw [ho])
  · exact s.output v
  · exact s.flags v
  · exact s.marks v

theorem Base.derivative [Add A] {bs : Blocks V T A} {cs : List BV} {h₀ h : Heap V T A} (s : Base bs cs h₀ h) (J : BV) (cs' : List BV) (seed : A) :
    Base bs cs h₀ (computeGradientState bs J cs' seed h) :=
  s.of_frame fun v => by
    obtain ⟨a, ha⟩ := computeGradientState_adj_frame bs J cs' seed h s.flags s.marks v
    exact ⟨a, _, _, ha⟩

theorem Base.hessian [Add T] [Add A] [Zero A] {bs : Blocks V T A} {cs : List BV} {h₀ h : Heap V T A} (s : Base bs cs h₀ h) (J : BV) (cs' : List BV)
    (ds : List T) : Base bs cs h₀ (computeHessianOf bs J cs' ds h).2 :=
  s.of_frame fun v => by
    obtain ⟨a, b, ha⟩ := computeHessianOf_frame bs J cs' ds h s.marks v
    exact ⟨_, a, b, ha⟩

theorem Base.step [Add T] [Add A] [Zero A] {bs : Blocks V T A} (wf : WF bs) {cs : List BV} {h₀ h : Heap V T A} (s : Base bs cs h₀ h)
    (c : BlockCall V T A) : Base bs cs h₀ (c.step bs cs h) := by
  cases c with
  | eval xs => exact s.eval wf xs
  | crash xs k j =>
    have fr := fun v => crashed_evaluation_undisturbed bs cs xs k j h s.flags v
    refine ⟨fun v => ?_, fun v => ?_, fun v => ?_, fun v hv => (crashedEval_kept wf cs xs k j h v hv).trans (s.kept v hv)⟩ <;>
      (obtain ⟨o, ho⟩ := fr v; rw [BlockCall.step, ho])
    · exact s.output v
    · exact s.flags v
    · exact s.marks v
  | derivative J' cs' seed => exact s.derivative J' cs' seed
  | tangent r cs' ds =>
    refine s.of_frame fun v => ?_
    obtain ⟨t1, e1⟩ := evaluateTlm_frame bs false (seedTlm cs' ds (if r then resetVariables bs .tlm h else h)) v
    obtain ⟨t2, e2⟩ := seedTlm_frame cs' ds (if r then resetVariables bs .tlm h else h) v
    refine ⟨(h v).adj, t1, (h v).hess, ?_⟩
    rw [BlockCall.step, e1, e2]
    cases r with
    | false => rfl
    | true =>
      simp only [if_true, resetVariables_apply]
      split <;> rfl
  | hessian J' cs' ds => exact s.hessian J' cs' ds

theorem Base.run [Add T] [Add A] [Zero A] {bs : Blocks V T A} (wf : WF bs) {cs : List BV} {h₀ h : Heap V T A} (s : Base bs cs h₀ h)
    (l : List (BlockCall V T A)) : Base bs cs h₀ (runBlockCalls bs cs l h) := by
  unfold runBlockCalls
  induction l generalizing h with
  | nil => exact s
  | cons c l ih => exact ih (s.step wf c)

/-- After `rf(x)` and `rf.derivative()`, two heaps with the same base agree in values and adjoints on the tape. -/
theorem Base.sim [Add A] {bs : Blocks V T A} (wf : WF bs) {cs : List BV} (hnd : cs.Nodup) {h₀ h : Heap V T A} (s : Base bs cs h₀ h)
    (hfl : ∀ v, (h₀ v).isControl = false) (hmk : ∀ v, (h₀ v).marked = false)
    (htot : ∀ b ∈ bs, ∀ inputs i, inputs.length = b.deps.length → i < b.outs.length → (b.recomputeC inputs i).isSome)
    (x : List V) (hx : x.length = cs.length) (J : BV) (seed : A) :
    (∀ v, saved (rfEval bs cs x h) v = saved (rfEval bs cs x h₀) v) ∧
    SimA (OnTape bs) (computeGradientState bs J cs seed (rfEval bs cs x h)) (computeGradientState bs J cs seed (rfEval bs cs x h₀)) := by
  have hsv : ∀ v, saved (rfEval bs cs x h) v = saved (rfEval bs cs x h₀) v :=
    evaluation_history_independent wf cs hnd x hx htot h h₀ s.flags hfl s.output s.kept
  have m₁ := (s.eval wf x).marks
  have m₀ := ((Base.refl hfl hmk : Base bs cs h₀ h₀).eval wf x).marks
  exact ⟨hsv, SimA.computeGradientState bs J cs seed (fun v _ => hsv v) fun v _ => (m₁ v).trans (m₀ v).symm⟩

/-! ## The theorem -/

/-- **C55, arbitrary blocks.** Whatever was evaluated and differentiated before on the tape, including evaluations that raised at any point: after `rf(x)`,
the values on the tape, the gradient, and the Hessian action computed after the gradient are those on the tape as it was first. -/
theorem history_independent_blocks [Add T] [Add A] [Zero A] {bs : Blocks V T A} (wf : WF bs) (cs : List BV) (hnd : cs.Nodup) (J : BV)
    (hcs : ∀ c ∈ cs, OnTape bs c)
    (htot : ∀ b ∈ bs, ∀ inputs i, inputs.length = b.deps.length → i < b.outs.length → (b.recomputeC inputs i).isSome)
    (h₀ : Heap V T A) (hfl : ∀ v, (h₀ v).isControl = false) (hmk : ∀ v, (h₀ v).marked = false)
    (l : List (BlockCall V T A)) (x : List V) (hx : x.length = cs.length) (seed : A) (ds : List T) :
    let h := runBlockCalls bs cs l h₀
    (∀ v, saved (rfEval bs cs x h) v = saved (rfEval bs cs x h₀) v) ∧
    (computeGradient bs J cs seed (rfEval bs cs x h)).1 = (computeGradient bs J cs seed (rfEval bs cs x h₀)).1 ∧
    (computeHessianOf bs J cs ds (computeGradient bs J cs seed (rfEval bs cs x h)).2).1
      = (computeHessianOf bs J cs ds (computeGradient bs J cs seed (rfEval bs cs x h₀)).2).1 := by
  intro h
  have s : Base bs cs h₀ h := (Base.refl hfl hmk).run wf l
  obtain ⟨hsv, hs⟩ := s.sim wf hnd hfl hmk htot x hx J seed
  refine ⟨hsv, ?_, ?_⟩
  · unfold computeGradient
    apply List.map_congr_left
    intro c hc
    unfold getDerivative
    rw [hs.adj c (hcs c hc)]
  · have hh := SimH.computeHessianOf hs J cs ds
    show cs.map (getHessian (computeHessianOf bs J cs ds _).2) = cs.map (getHessian (computeHessianOf bs J cs ds _).2)
    apply List.map_congr_left
    intro c hc
    unfold getHessian
    have := hh.hess c (hcs c hc)
    unfold computeGradient
    simp only
    rw [this]

/-- The hypotheses hold for a tape of two hand-written blocks and a history with a crash. -/
example : (computeGradient cubeTape 2 [0] 1 (rfEval cubeTape [0] [2]
      (runBlockCalls cubeTape [0] [.eval [5], .derivative 2 [0] 1, .hessian 2 [0] [3], .tangent false [1] [7], .crash [4] 1 0] cubeHeap))).1
    = (computeGradient cubeTape 2 [0] 1 (rfEval cubeTape [0] [2] cubeHeap)).1 := by
  refine (history_independent_blocks cubeTape_wf [0] (by simp) 2 ?_ ?_ cubeHeap (fun _ => rfl) (fun _ => rfl) _ [2] rfl 1 []).2.1
  · intro c hc
    simp only [List.mem_singleton] at hc
    subst hc
    exact ⟨cubeBlock 0 1, by simp [cubeTape], Or.inl (by simp [cubeBlock])⟩
  · intro b hb inputs i hl hi
    obtain ⟨d, o, rfl, -⟩ := cubeTape_dep b hb
    match inputs, hl with
    | [x], _ => rfl

end Pyadjoint
