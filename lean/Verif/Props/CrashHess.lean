import Verif.Model.CrashHess
import Verif.Props.Optimizer
import Verif.Proofs.Derivs

/-!
# Derivative and Hessian computations that raised (C64)
-/

namespace Pyadjoint

/-! ## Specification: what may have happened before -/

/-- One thing that may have happened on a tape: a call that returned or an evaluation that raised (`TapeCall`), a `compute_gradient` that
raised at any component of any block, a `compute_hessian` that raised anywhere in its sweeps.  `Q` restricts the controls of the last two. -/
inductive Happened (t : FTape) (cs : List BV) (Q : List BV → Prop) (h : FHeap) : FHeap → Prop
  | call (c : TapeCall) (h' : FHeap) (hc : c.step t cs h = .ok h') : Happened t cs Q h h'
  | crashedDerivative (J' : BV) (cs' : List BV) (seed : ℝ) (k j : Nat) (hq : Q cs') :
    Happened t cs Q h (crashedGradientState t.blocks J' cs' seed k j h)
  | crashedHessian (J' : BV) (cs' : List BV) (ds : List ℝ) (h' : FHeap) (hq : Q cs') (hc : t.CrashedHessian J' cs' ds h h') :
    Happened t cs Q h h'

/-- Any number of them. -/
inductive Happen (t : FTape) (cs : List BV) (Q : List BV → Prop) (h : FHeap) : FHeap → Prop
  | nil : Happen t cs Q h h
  | snoc (h' h'' : FHeap) (hh : Happen t cs Q h h') (hs : Happened t cs Q h' h'') : Happen t cs Q h h''

/-! ## Proof -/

/-- What nothing of this changes; `P` bounds the path markings. -/
structure SameVals (t : FTape) (cs : List BV) (P : BV → Prop) (h₀ h : FHeap) : Prop where
  output : ∀ v, (h v).output = (h₀ v).output
  flags : ∀ v, (h v).isControl = false
  marks : ∀ v, (h v).marked = true → P v
  kept : ∀ v, Kept t.blocks cs v → (h v).ckpt = (h₀ v).ckpt

theorem SameVals.derivs {t : FTape} {cs : List BV} {P : BV → Prop} {h₀ h h' : FHeap} (s : SameVals t cs P h₀ h)
    (d : ∀ v, Derivs P (h v) (h' v) v) : SameVals t cs P h₀ h' :=
  ⟨fun v => (d v).1.trans (s.output v), fun v => (d v).2.2.1 (s.flags v), fun v hv => ((d v).2.2.2 hv).elim (s.marks v) id,
    fun v hv => (d v).2.1.trans (s.kept v hv)⟩

theorem SameVals.step {t : FTape} (wf : WF t.blocks) {cs : List BV} {P : BV → Prop} {Q : List BV → Prop}
    (hQ : ∀ cs', Q cs' → ∀ v ∈ findRelevantNodes t.blocks cs', P v) {h₀ h h' : FHeap} (s : SameVals t cs P h₀ h)
    (hh : Happened t cs Q h h') : SameVals t cs P h₀ h' := by
  have hself := FTape.WF_self wf
  cases hh with
  | crashedDerivative J' cs' seed k j hq => exact s.derivs (derivs_crashedGradient P t J' cs' seed k j (hQ cs' hq) h)
  | crashedHessian J' cs' ds _ hq hc => exact s.derivs (derivs_crashedHessian P t hself J' cs' ds (hQ cs' hq) h h' hc)
  | call c _ hc =>
    cases c with
    | eval xs =>
      cases hc
      have fr := fun v => rfEval_frame t.blocks cs xs h v (fun c _ => s.flags c)
      refine ⟨fun v => ?_, fun v => ?_, fun v => ?_, fun v hv => (rfEval_kept wf cs xs h v hv).trans (s.kept v hv)⟩ <;>
        (obtain ⟨o, ho⟩ := fr v; rw [ho])
      · exact s.output v
      · exact s.flags v
      · exact s.marks v
    | crash xs k j =>
      cases hc
      have fr := fun v => crashed_evaluation_undisturbed t.blocks cs xs k j h s.flags v
      refine ⟨fun v => ?_, fun v => ?_, fun v => ?_, fun v hv => (crashedEval_kept wf cs xs k j h v hv).trans (s.kept v hv)⟩ <;>
        (obtain ⟨o, ho⟩ := fr v; rw [ho])
      · exact s.output v
      · exact s.flags v
      · exact s.marks v
    | derivative J' cs' seed =>
      cases hc
      exact s.derivs (derivs_computeGradient P t J' cs' seed h)
    | hessian J' cs' ds =>
      cases hr : t.computeHessian J' cs' ds h with
      | error e => rw [TapeCall.step, hr] at hc; cases hc
      | ok r =>
        rw [TapeCall.step, hr] at hc
        cases hc
        exact s.derivs (derivs_computeHessian P t hself J' cs' ds h r hr)

theorem SameVals.run {t : FTape} (wf : WF t.blocks) {cs : List BV} {P : BV → Prop} {Q : List BV → Prop}
    (hQ : ∀ cs', Q cs' → ∀ v ∈ findRelevantNodes t.blocks cs', P v) {h₀ h : FHeap}
    (hfl : ∀ v, (h₀ v).isControl = false) (hmk : ∀ v, (h₀ v).marked = false) (hh : Happen t cs Q h₀ h) : SameVals t cs P h₀ h := by
  induction hh with
  | nil => exact ⟨fun _ => rfl, hfl, fun v hv => absurd hv (by rw [hmk v]; simp), fun _ _ => rfl⟩
  | snoc h' h'' _ hs ih => exact ih.step wf hQ hs

/-- `compute_gradient` overwrites the markings of its own path. -/
theorem computeGradientState_unmark (t : FTape) (J : BV) (cs : List BV) (seed : ℝ) (g : FHeap) :
    computeGradientState t.blocks J cs seed (markAll (findRelevantNodes t.blocks cs) false g) = computeGradientState t.blocks J cs seed g := by
  unfold computeGradientState
  simp only []
  have key : markAll (findRelevantNodes t.blocks cs) true (Function.update
      (resetVariables t.blocks .adjoint (markAll (findRelevantNodes t.blocks cs) false g)) J
        { resetVariables t.blocks .adjoint (markAll (findRelevantNodes t.blocks cs) false g) J with adj := some seed })
      = markAll (findRelevantNodes t.blocks cs) true (Function.update (resetVariables t.blocks .adjoint g) J
        { resetVariables t.blocks .adjoint g J with adj := some seed }) := ?_
  · exact congrArg (fun X => markAll (findRelevantNodes t.blocks cs) false
      (markControls cs false (evaluateAdj t.blocks true (markControls cs true X)))) key
  funext v
  rw [markAll_apply, markAll_apply]
  have e : ∀ w, resetVariables t.blocks .adjoint (markAll (findRelevantNodes t.blocks cs) false g) w
      = if w ∈ findRelevantNodes t.blocks cs then { resetVariables t.blocks .adjoint g w with marked := false } else resetVariables t.blocks .adjoint g w := by
    intro w
    rw [resetVariables_apply, resetVariables_apply, markAll_apply]
    split <;> split <;> rfl
  by_cases hv : v ∈ findRelevantNodes t.blocks cs
  · rw [if_pos hv, if_pos hv]
    by_cases hJ : v = J
    · subst hJ
      rw [Function.update_self, Function.update_self, e, if_pos hv]
    · rw [Function.update_of_ne hJ, Function.update_of_ne hJ, e, if_pos hv]
  · rw [if_neg hv, if_neg hv]
    by_cases hJ : v = J
    · subst hJ
      rw [Function.update_self, Function.update_self, e, if_neg hv]
    · rw [Function.update_of_ne hJ, Function.update_of_ne hJ, e, if_neg hv]

/-! ## The theorems -/

/-- **C64, values and gradients.** Whatever happened before on the tape, including evaluations, derivative computations and Hessian computations that
raised anywhere: after `rf(x)`, the values on the tape and the gradient are those on the tape as it was first. -/
theorem gradient_after_crashes (t : FTape) (wf : WF t.blocks) (cs : List BV) (hnd : cs.Nodup) (J : BV)
    (hcs : ∀ c ∈ cs, OnTape t.blocks c) (h₀ : FHeap) (hfl : ∀ v, (h₀ v).isControl = false) (hmk : ∀ v, (h₀ v).marked = false)
    (h : FHeap) (hh : Happen t cs (fun _ => True) h₀ h) (x : List ℝ) (hx : x.length = cs.length) (seed : ℝ) :
    (∀ v, saved (rfEval t.blocks cs x h) v = saved (rfEval t.blocks cs x h₀) v) ∧
    (computeGradient t.blocks J cs seed (rfEval t.blocks cs x h)).1 = (computeGradient t.blocks J cs seed (rfEval t.blocks cs x h₀)).1 := by
  have s : SameVals t cs (fun _ => True) h₀ h := SameVals.run wf (fun _ _ _ _ => trivial) hfl hmk hh
  have hsv : ∀ v, saved (rfEval t.blocks cs x h) v = saved (rfEval t.blocks cs x h₀) v :=
    evaluation_history_independent wf cs hnd x hx t.total h h₀ s.flags hfl s.output s.kept
  exact ⟨hsv, gradient_of_saved wf J cs seed _ _ hsv fun c hc => Or.inl (hcs c hc)⟩

/-- **C64, Hessians, part.** If the derivative and Hessian computations that raised before were with respect to controls whose downstream
values also depend on the present controls - in particular if they were with respect to the same controls - then the Hessian action is the one on
the tape as it was first.  Without this condition it is not, `crash_changes_hessian`. -/
theorem hessian_after_crashes_partial (t : FTape) (wf : WF t.blocks) (cs : List BV) (hnd : cs.Nodup) (J : BV) (hJ : OnTape t.blocks J)
    (hcs : ∀ c ∈ cs, OnTape t.blocks c) (h₀ : FHeap) (hfl : ∀ v, (h₀ v).isControl = false) (hmk : ∀ v, (h₀ v).marked = false)
    (h : FHeap) (hh : Happen t cs (fun cs' => ∀ v, Reach t.blocks (· ∈ cs') v → Reach t.blocks (· ∈ cs) v) h₀ h)
    (x : List ℝ) (hx : x.length = cs.length) (seed : ℝ) (ds : List ℝ) :
    (t.computeHessian J cs ds (computeGradientState t.blocks J cs seed (rfEval t.blocks cs x h))).map (·.1)
      = (t.computeHessian J cs ds (computeGradientState t.blocks J cs seed (rfEval t.blocks cs x h₀))).map (·.1) := by
  have s : SameVals t cs (· ∈ findRelevantNodes t.blocks cs) h₀ h := SameVals.run wf
    (fun cs' hq v hv => (findRelevantNodes_iff wf cs v).2 (hq v ((findRelevantNodes_iff wf cs' v).1 hv))) hfl hmk hh
  have hsv : ∀ v, saved (rfEval t.blocks cs x h) v = saved (rfEval t.blocks cs x h₀) v :=
    evaluation_history_independent wf cs hnd x hx t.total h h₀ s.flags hfl s.output s.kept
  rw [← computeGradientState_unmark t J cs seed (rfEval t.blocks cs x h)]
  have m₁ : ∀ v, (markAll (findRelevantNodes t.blocks cs) false (rfEval t.blocks cs x h) v).marked = false := fun v => by
    rw [markAll_apply]
    split
    · rfl
    · obtain ⟨o, ho⟩ := rfEval_frame t.blocks cs x h v (fun c _ => s.flags c)
      rw [ho]
      exact Bool.eq_false_iff.2 fun e => absurd (s.marks v e) ‹_›
  have m₀ : ∀ v, (rfEval t.blocks cs x h₀ v).marked = false := fun v => by
    obtain ⟨o, ho⟩ := rfEval_frame t.blocks cs x h₀ v (fun c _ => hfl c); rw [ho]; exact hmk v
  have f₁ : ∀ v, (markAll (findRelevantNodes t.blocks cs) false (rfEval t.blocks cs x h) v).isControl = false := fun v => by
    obtain ⟨o, ho⟩ := rfEval_frame t.blocks cs x h v (fun c _ => s.flags c)
    rw [markAll_apply]
    split <;> rw [ho] <;> exact s.flags v
  have f₀ : ∀ v, (rfEval t.blocks cs x h₀ v).isControl = false := fun v => by
    obtain ⟨o, ho⟩ := rfEval_frame t.blocks cs x h₀ v (fun c _ => hfl c); rw [ho]; exact hfl v
  have hsv' : ∀ v, saved (markAll (findRelevantNodes t.blocks cs) false (rfEval t.blocks cs x h)) v = saved (rfEval t.blocks cs x h₀) v := by
    intro v; rw [saved_markAll]; exact hsv v
  exact hessian_after_gradient t cs J hJ hcs _ _ hsv' m₁ m₀ f₁ f₀ seed ds

/-- **C64, Hessians, exactness, part.** Whatever happened before, including computations that raised anywhere with respect to any controls: after
`rf(x₀)` and `rf.derivative(adj_input)`, `rf.hessian(dir)` returns the derivative of the gradient of `rf` as it was first, provided every operation
depending on a control is twice differentiable at its operands and has a right Hessian formula (`HessSafe`), and the results of all `/` and `**` depend on
a control.  (The last two provisos are those of C06.) -/
theorem hessian_exact_after_crashes_partial (t : FTape) (wf : WF t.blocks) (cs : List BV) (hnd : cs.Nodup) (J : BV)
    (hcs : ∀ c ∈ cs, OnTape t.blocks c) (h₀ : FHeap) (hfl : ∀ v, (h₀ v).isControl = false) (hmk : ∀ v, (h₀ v).marked = false)
    (h : FHeap) (hh : Happen t cs (fun _ => True) h₀ h) (hind : IndependentControls t.blocks cs) (scale adjInput : ℝ)
    (x₀ dir : Fin cs.length → ℝ)
    (hsmooth : ∀ b ∈ t, (∃ d ∈ b.deps, Reach t.blocks (· ∈ cs) d) →
      b.Smooth2 (saved (rfEval t.blocks cs (List.ofFn x₀) h₀)) (Reach t.blocks (· ∈ cs)))
    (hsafe : ∀ b ∈ t, (∃ d ∈ b.deps, Reach t.blocks (· ∈ cs) d) → b.HessSafe)
    (hneed : ∀ b ∈ t, b.NeedsAdj → Reach t.blocks (· ∈ cs) b.out) :
    ∃ (hess : Fin cs.length → ℝ) (h' : FHeap),
      t.computeHessian J cs (List.ofFn dir) (rfDerivative t.blocks J cs scale adjInput (rfEval t.blocks cs (List.ofFn x₀) h)).2
        = .ok (List.ofFn hess, h') ∧
      ∀ i : Fin cs.length, HasDerivAt (fun s : ℝ => fderiv ℝ (fun x => adjInput * rfValue t J cs scale h₀ x) (x₀ + s • dir) (Pi.single i 1))
        (hess i) 0 := by
  have s : SameVals t cs (fun _ => True) h₀ h := SameVals.run wf (fun _ _ _ _ => trivial) hfl hmk hh
  have hsv : ∀ x : Fin cs.length → ℝ, saved (rfEval t.blocks cs (List.ofFn x) h) = saved (rfEval t.blocks cs (List.ofFn x) h₀) := fun x =>
    funext fun v => evaluation_history_independent wf cs hnd (List.ofFn x) (by simp) t.total h h₀ s.flags hfl s.output s.kept v
  obtain ⟨⟨hs, h'⟩, hret⟩ := hessian_returns_partial t wf J cs (rfEval t.blocks cs (List.ofFn x₀) h) scale adjInput (List.ofFn dir)
    (fun c hc => Or.inl (hcs c hc)) hneed
  obtain ⟨hess, h1, h2⟩ := hessian_exact_safe t wf J cs hnd h s.flags hind scale adjInput x₀ dir (by rw [hsv]; exact hsmooth)
    (fun c hc => Or.inl (hcs c hc)) hsafe hs h' hret
  refine ⟨hess, h', by rw [hret, h1], fun i => ?_⟩
  have e : rfValue t J cs scale h = rfValue t J cs scale h₀ := by
    funext x; rw [rfValue_eq, rfValue_eq, hsv]
  rw [e] at h2
  exact h2 i

/-- `J = (x * c) * (x * c)` with `x`, `c` the variables `0`, `1`. -/
def crashTape : FTape := [.bin .mul 0 1 2, .bin .mul 2 2 3]

theorem crashTape_wf : WF crashTape.blocks := by
  refine ⟨?_, ?_, ?_⟩
  · intro b hb
    simp only [FTape.blocks, crashTape, List.map_cons, List.map_nil, List.mem_cons, List.not_mem_nil, or_false] at hb
    rcases hb with rfl | rfl <;> simp [FBlock.toBlock]
  · intro b hb
    simp only [FTape.blocks, crashTape, List.map_cons, List.map_nil, List.mem_cons, List.not_mem_nil, or_false] at hb
    rcases hb with rfl | rfl <;> simp [FBlock.toBlock]
  · simp [FTape.blocks, crashTape, FBlock.toBlock]

/-- **C64 fails for Hessians.** `J(x) = (x c)²` with `c = 5`.  A derivative with respect to `c` raised at its first block, leaving `c` marked;
after that `rf(x)`, `rf.derivative()`, `rf.hessian(1)` return `50` instead of `10 x`.  (The former is the second derivative; the latter is due to
the defect of `MulBlock`, see C06.) -/
theorem crash_changes_hessian (x : ℝ) :
    ∃ h, Happen crashTape [0] (fun _ => True) unitHeap h ∧
      (crashTape.computeHessian 3 [0] [1] (computeGradientState crashTape.blocks 3 [0] 1 (rfEval crashTape.blocks [0] [x] unitHeap))).map (·.1)
        = .ok [10 * x] ∧
      (crashTape.computeHessian 3 [0] [1] (computeGradientState crashTape.blocks 3 [0] 1 (rfEval crashTape.blocks [0] [x] h))).map (·.1)
        = .ok [50] := by
  refine ⟨_, .snoc _ _ .nil (.crashedDerivative 3 [1] 1 0 0 trivial), ?_, ?_⟩
  · apply Eq.trans (b := Except.ok [_]) rfl
    congr 2
    show 0 + ((1 : ℝ) * (0 + 1 * 5 + 0) + 0 * (x * 5) + (1 * (0 + 1 * 5 + 0) + 0 * (x * 5))) * x = _
    ring
  · apply Eq.trans (b := Except.ok [_]) rfl
    congr 2
    show 0 + ((1 : ℝ) * (0 + 1 * 5 + 0) + 0 * (x * 5) + (1 * (0 + 1 * 5 + 0) + 0 * (x * 5))) * 5 = _
    ring

/-- The hypotheses of the theorems above: a history on `sqTape` (`J = x * x`) with a derivative that raised and a Hessian computation that raised. -/
example : WF sqTape.blocks ∧ [0].Nodup ∧ OnTape sqTape.blocks 1 ∧ (∀ c ∈ [0], OnTape sqTape.blocks c) ∧ IndependentControls sqTape.blocks [0] ∧
    (∀ b ∈ sqTape, b.HessSafe) ∧ (∀ b ∈ sqTape, ¬ b.NeedsAdj) ∧
    ∃ h, Happen sqTape [0] (fun cs' => ∀ v, Reach sqTape.blocks (· ∈ cs') v → Reach sqTape.blocks (· ∈ [0]) v) unitHeap h ∧
      (h 1).marked = true ∧ (h 0).hess = some 7 := by
  refine ⟨sqTape_wf, by simp, ⟨_, List.mem_cons_self, Or.inr (List.mem_singleton.2 rfl)⟩, ?_, ?_, ?_, ?_, _,
    .snoc _ _ (.snoc _ _ (.snoc _ _ .nil (.call (.eval [3]) _ rfl)) (.crashedDerivative 1 [0] 1 0 0 (fun _ h => h)))
      (.crashedHessian 1 [0] [1] _ (fun _ h => h) (.hessian 0 (.bin .mul 0 0 1) (fun _ => some 7) _ rfl rfl)), rfl, rfl⟩
  · intro c hc
    rw [List.mem_singleton] at hc
    subst hc
    exact ⟨_, List.mem_cons_self, Or.inl List.mem_cons_self⟩
  · intro c hc b hb ho
    simp only [FTape.blocks, sqTape, List.map_cons, List.map_nil, List.mem_cons, List.not_mem_nil, or_false] at hb hc
    subst hb hc
    simp [FBlock.toBlock] at ho
  · intro b hb
    obtain rfl := List.mem_singleton.1 hb
    rfl
  · intro b hb
    obtain rfl := List.mem_singleton.1 hb
    exact id

end Pyadjoint
